import Verif.Markets
import Verif.SharedSet
import Verif.Lemmas.Rezone

/-!
# Frame sets fed by epics of different timezones
-/

set_option linter.unusedSectionVars false
set_option autoImplicit false

namespace Estrade

section
variable [Arith]

theorem zaddToLast_nd (z : ZFrameSet) (c : Ctx) (tick : Tick) : (z.addToLast c tick).2 ≠ some .diverge := by
  unfold ZFrameSet.addToLast
  dsimp only
  intro h
  have := (feedLast_agrees z.fs c tick).error h
  unfold FrameSet.addToLast at this
  split at this
  · cases this
  · exact nd_bind upsert_nd (by intro a; exact fun h => by cases h) this

/-- A tick added to the last frame changes no bounds. -/
theorem ZInv.addToLast {offs : ℕ → ℤ} {u : Unit'} {q : ℤ} {z : ZFrameSet} (hz : ZInv offs u q z) (c : Ctx) (tick : Tick) :
    ZInv offs u q (z.addToLast c tick).1 ∧ (z.addToLast c tick).1.now = z.now ∧ (z.addToLast c tick).2 ≠ some .diverge := by
  obtain ⟨b1, b2, b3, b4⟩ := feedLast_bounds z.fs c tick
  have hlen : (z.fs.feedLast c tick).1.heap.length = z.fs.heap.length := by simpa using congrArg List.length b1
  refine ⟨⟨b3.trans hz.unit, b4.trans hz.qty, ?_, ?_, ?_, ?_⟩, ?_, ?_⟩
  · unfold ZFrameSet.addToLast
    exact hz.zones.trans hlen.symm
  · unfold ZFrameSet.addToLast
    dsimp only
    rw [b2, hz.last, hlen]
    have : (z.fs.feedLast c tick).1.heap = [] ↔ z.fs.heap = [] := by
      rw [← List.length_eq_zero_iff, ← List.length_eq_zero_iff, hlen]
    simp only [this]
  · unfold ZFrameSet.addToLast
    dsimp only
    rw [b1]
    exact hz.period
  · unfold ZFrameSet.addToLast
    dsimp only
    rw [b1]
    exact hz.linked
  · unfold ZFrameSet.now ZFrameSet.addToLast
    dsimp only
    rw [b1]
  · exact zaddToLast_nd z c tick

/-- A tick that is before the current frame is added to it. -/
theorem zfeed_late {offs : ℕ → ℤ} {u : Unit'} {q : ℤ} (hT : Tiles u q) {z : ZFrameSet} (hz : ZInv offs u q z) (c : Ctx) {tick : Tick}
    (ht : Proper offs tick.dt) {b : ℤ × Option ℤ} (hb : z.now = some b) (hl : tick.dt.utc < b.1) :
    z.feed offs c tick = z.addToLast c tick ∧ ∃ e, b.2 = some e ∧ tick.dt.utc < e := by
  rcases hz.current with ⟨h1, h2, h3⟩ | ⟨i, f, n, k, h1, h2, h3, h4, h5, h6, h7⟩
  · rw [h3] at hb; cases hb
  · rw [h5] at hb
    cases hb
    have hl : tick.dt.utc < f.periodStart := hl
    have hg := grid_strictMono hT (show k < k + 1 by omega)
    have hlt : tick.dt.utc < grid u q (k + 1) - offs n := by rw [h6] at hl; omega
    refine ⟨?_, _, h7, hlt⟩
    have hu : z.fs.unit ≠ .tick := by rw [hz.unit]; exact hT.ne_tick
    unfold ZFrameSet.feed
    rw [if_neg hu]
    unfold ZFrameSet.overTimed
    rw [h4]
    dsimp only
    rw [ZFrameSet.periodEnd_eq h7 h3]
    dsimp only
    rw [ht.lt (atZone_proper offs n _), if_neg]
    rw [decide_eq_true (show tick.dt.utc < (atZone offs n (grid u q (k + 1) - offs n)).utc from hlt)]
    exact Bool.false_ne_true

/-- A tick that comes in any order. -/
theorem ZInv.feed_any {offs : ℕ → ℤ} (ho : ∀ n, |offs n| < dayUs) {u : Unit'} {q : ℤ} (hT : Tiles u q) {z : ZFrameSet}
    (hz : ZInv offs u q z) (c : Ctx) {tick : Tick} (ht : Proper offs tick.dt) :
    ZInv offs u q (z.feed offs c tick).1 ∧
      (∀ x, tick.dt.utc ≤ x → (∀ b, z.now = some b → b.1 ≤ x) → ∀ b, (z.feed offs c tick).1.now = some b → b.1 ≤ x) ∧
      ((z.feed offs c tick).2 = none →
        ∃ s e, (z.feed offs c tick).1.now = some (s, some e) ∧ tick.dt.utc < e ∧
          ((∀ b, z.now = some b → b.1 ≤ tick.dt.utc) → s ≤ tick.dt.utc)) ∧
      (z.feed offs c tick).2 ≠ some .diverge := by
  by_cases hnow : ∀ b, z.now = some b → b.1 ≤ tick.dt.utc
  · obtain ⟨r1, r2, r3, r4⟩ := hz.feed ho hT c ht hnow
    refine ⟨r1, fun x hx _ b hb => le_trans (r2 b hb) hx, fun hn => ?_, r4⟩
    obtain ⟨s, e, e1, e2, e3⟩ := r3 hn
    exact ⟨s, e, e1, e3, fun _ => e2⟩
  · simp only [not_forall] at hnow
    obtain ⟨b, hb, hl⟩ := hnow
    obtain ⟨e1, e, e2, e3⟩ := zfeed_late hT hz c ht hb (by omega)
    obtain ⟨r1, r2, r3⟩ := hz.addToLast c tick
    rw [e1]
    refine ⟨r1, fun x _ hx => by rw [r2]; exact hx, fun _ => ⟨b.1, e, ?_, e3, fun h => absurd (h b hb) hl⟩, r3⟩
    rw [r2, hb, ← e2]

/-! ## Zones of frames -/

theorem zcreate_zones (z : ZFrameSet) (c : Ctx) (tick : Tick) (ps : DT) (pe : Option DT) :
    (z.create c tick ps pe).1.zones = z.zones ∧ (∃ e, (z.create c tick ps pe).2 = some e) ∨
      (z.create c tick ps pe).1.zones = z.zones ++ [ps.tz] := by
  unfold ZFrameSet.create
  dsimp only
  rcases feedCreate_bounds z.fs c tick ps.utc (pe.map DT.utc) with ⟨h, h'⟩ | ⟨h, _⟩
  · left
    exact ⟨if_neg (by rw [h]; omega), h'⟩
  · right
    have hl : (z.fs.feedCreate c tick ps.utc (pe.map DT.utc)).1.heap.length = z.fs.heap.length + 1 := by
      simpa using congrArg List.length h
    exact if_pos (by omega)

theorem zfill_zones {offs : ℕ → ℤ} (c : Ctx) (ps : DT) (fuel : ℕ) : ∀ z : ZFrameSet,
    ∃ k, (ZFrameSet.fill offs c ps fuel z).1.zones = z.zones ++ k ∧ ∀ n ∈ k, n ∈ z.zones := by
  induction fuel with
  | zero =>
    intro z
    refine ⟨[], ?_, fun n hn => by cases hn⟩
    unfold ZFrameSet.fill
    rw [List.append_nil]
    rcases z.fs.current with _ | ⟨i, f⟩
    · rfl
    · dsimp only
      rcases z.periodEnd offs i f with _ | pe
      · rfl
      · dsimp only
        split_ifs <;> rfl
  | succ fuel ih =>
    intro z
    unfold ZFrameSet.fill
    rcases z.fs.current with _ | ⟨i, f⟩
    · exact ⟨[], (List.append_nil _).symm, fun n hn => by cases hn⟩
    · dsimp only
      rcases hp : z.periodEnd offs i f with _ | pe
      · exact ⟨[], (List.append_nil _).symm, fun n hn => by cases hn⟩
      · dsimp only
        have hm : pe.tz ∈ z.zones := by
          unfold ZFrameSet.periodEnd at hp
          split at hp
          · rename_i e n h1 h2
            cases hp
            exact List.mem_of_getElem? h2
          · cases hp
        split_ifs
        · have hc := zcreate_zones z c f.last pe (some (zoneEnd offs z.fs.unit z.fs.qty pe))
          rcases hx : z.create c f.last pe (some (zoneEnd offs z.fs.unit z.fs.qty pe)) with ⟨z', _ | e⟩
          · rw [hx] at hc
            rcases hc with ⟨_, e, he⟩ | hc
            · cases he
            · have hc : z'.zones = z.zones ++ [pe.tz] := hc
              obtain ⟨k, k1, k2⟩ := ih z'
              refine ⟨pe.tz :: k, ?_, ?_⟩
              · dsimp only
                rw [k1, hc, List.append_assoc]; rfl
              · intro n hn
                rcases List.mem_cons.mp hn with rfl | hn
                · exact hm
                · have := k2 n hn
                  rw [hc] at this
                  rcases List.mem_append.mp this with h | h
                  · exact h
                  · rw [List.mem_singleton.mp h]; exact hm
          · rw [hx] at hc
            rcases hc with ⟨hc, _⟩ | hc
            · exact ⟨[], by rw [List.append_nil]; exact hc, fun n hn => by cases hn⟩
            · exact ⟨[pe.tz], hc, fun n hn => by rw [List.mem_singleton.mp hn]; exact hm⟩
        · exact ⟨[], (List.append_nil _).symm, fun n hn => by cases hn⟩

/-- The frames a tick makes: those that fill a gap have the zone of earlier frames, the last one has that of the tick. -/
theorem zfeed_zones {offs : ℕ → ℤ} (z : ZFrameSet) (c : Ctx) (tick : Tick) :
    (∀ n ∈ (z.feed offs c tick).1.zones, n ∈ z.zones ∨ n = tick.dt.tz) ∧
      ((z.feed offs c tick).2 = none → (z.feed offs c tick).1.zones = z.zones ∨
        (z.feed offs c tick).1.zones.getLast? = some tick.dt.tz) := by
  have create : ∀ (ps : DT) (pe : Option DT), ps.tz = tick.dt.tz → ∀ z' : ZFrameSet, (∀ n ∈ z'.zones, n ∈ z.zones ∨ n = tick.dt.tz) →
      (∀ n ∈ (z'.create c tick ps pe).1.zones, n ∈ z.zones ∨ n = tick.dt.tz) ∧
      ((z'.create c tick ps pe).2 = none → (z'.create c tick ps pe).1.zones = z.zones ∨
        (z'.create c tick ps pe).1.zones.getLast? = some tick.dt.tz) := by
    intro ps pe hps z' hz
    rcases zcreate_zones z' c tick ps pe with ⟨h, e, he⟩ | h
    · rw [h, he]
      exact ⟨hz, fun h => by cases h⟩
    · rw [h, hps]
      refine ⟨fun n hn => ?_, fun _ => .inr (by simp)⟩
      rcases List.mem_append.mp hn with hn | hn
      · exact hz n hn
      · exact .inr (List.mem_singleton.mp hn)
  unfold ZFrameSet.feed
  split_ifs
  · exact create tick.dt none rfl z (fun n hn => .inl hn)
  · exact ⟨fun n hn => .inl hn, fun _ => .inl rfl⟩
  · rcases z.overTimed offs tick with e | over
    · exact ⟨fun n hn => .inl hn, fun h => by cases h⟩
    · dsimp only
      split_ifs
      · unfold ZFrameSet.createTimed
        rcases hs : zoneStart offs z.fs.unit z.fs.qty tick.dt with e | ps
        · exact ⟨fun n hn => .inl hn, fun h => by cases h⟩
        · have hps : ps.tz = tick.dt.tz := by
            unfold zoneStart at hs
            rcases hf : frameStart z.fs.unit z.fs.qty tick.dt.wall with e | s
            · rw [hf] at hs; cases hs
            · rw [hf] at hs; cases hs; rfl
          dsimp only
          obtain ⟨k, k1, k2⟩ := zfill_zones (offs := offs) c ps (fillFuel z.fs ps.utc) z
          have hk : ∀ n ∈ (ZFrameSet.fill offs c ps (fillFuel z.fs ps.utc) z).1.zones, n ∈ z.zones ∨ n = tick.dt.tz := by
            intro n hn
            rw [k1] at hn
            rcases List.mem_append.mp hn with hn | hn
            · exact .inl hn
            · exact .inl (k2 n hn)
          rcases hx : ZFrameSet.fill offs c ps (fillFuel z.fs ps.utc) z with ⟨z', _ | e⟩
          · rw [hx] at hk
            exact create ps _ hps z' hk
          · rw [hx] at hk
            exact ⟨hk, fun h => by cases h⟩
      · exact ⟨fun n hn => .inl hn, fun _ => .inl rfl⟩

/-! ## The objects of a desk -/

/-- What every feed keeps holds of an object after a tick. -/
theorem feedZObjs_kept {offs : ℕ → ℤ} {z : Zone} {epics : List (Epic × Dict ℕ)} {t : Tick} (P : ZFrameSet → Prop)
    (hP : ∀ s c, P s → P (s.feed offs c t).1) (j : ℕ) (r : Dict ℕ) : ∀ objs : List ZObj, (∀ o, objs[j]? = some o → P o.set) →
    ∀ o, (feedZObjs offs z epics t objs r).1[j]? = some o → P o.set := by
  induction r with
  | nil => intro objs h; exact h
  | cons p r ih =>
    intro objs h
    obtain ⟨k, i⟩ := p
    unfold feedZObjs
    rcases hi : objs[i]? with _ | o
    · exact h
    · dsimp only
      have hs : ∀ o', (objs.set i { o with set := (o.set.feed offs (o.ctx z epics) t).1 })[j]? = some o' → P o'.set := by
        intro o' ho'
        rw [List.getElem?_set] at ho'
        split_ifs at ho' with h1 h2
        · cases ho'
          subst h1
          exact hP _ _ (h o hi)
        · exact h o' ho'
      rcases hf : o.set.feed offs (o.ctx z epics) t with ⟨s, _ | err⟩
      · rw [hf] at hs; exact ih _ hs
      · rw [hf] at hs; exact hs

/-- What holds of every frame set that was fed holds of the objects of the epic after a tick that raises nothing. -/
theorem feedZObjs_fed {offs : ℕ → ℤ} {z : Zone} {epics : List (Epic × Dict ℕ)} {t : Tick} (P Q : ZFrameSet → Prop)
    (hP : ∀ s c, P s → (s.feed offs c t).2 = none → P (s.feed offs c t).1)
    (hQ : ∀ s c, P s → (s.feed offs c t).2 = none → Q (s.feed offs c t).1) (j : ℕ)
    (r : Dict ℕ) : ∀ objs : List ZObj, (∀ o, objs[j]? = some o → P o.set) → (feedZObjs offs z epics t objs r).2 = none →
    (j ∈ r.map Prod.snd ∨ ∀ o, objs[j]? = some o → Q o.set) → ∀ o, (feedZObjs offs z epics t objs r).1[j]? = some o → Q o.set := by
  induction r with
  | nil =>
    intro objs _ _ h
    rcases h with h | h
    · cases h
    · exact h
  | cons p r ih =>
    intro objs h hn hh
    obtain ⟨k, i⟩ := p
    unfold feedZObjs at hn ⊢
    rcases hi : objs[i]? with _ | o
    · rw [hi] at hn; cases hn
    · rw [hi] at hn
      dsimp only at hn ⊢
      rcases hf : o.set.feed offs (o.ctx z epics) t with ⟨s, _ | err⟩
      · rw [hf] at hn
        dsimp only at hn ⊢
        refine ih _ ?_ hn ?_
        · intro o' ho'
          rw [List.getElem?_set] at ho'
          split_ifs at ho' with h1 h2
          · cases ho'
            subst h1
            have := hP _ (o.ctx z epics) (h o hi)
            rw [hf] at this
            exact this rfl
          · exact h o' ho'
        · by_cases hij : i = j
          · right
            intro o' ho'
            subst hij
            rw [List.getElem?_set_self (List.getElem?_eq_some_iff.mp hi).1] at ho'
            cases ho'
            have := hQ _ (o.ctx z epics) (h o hi)
            rw [hf] at this
            exact this rfl
          · rcases hh with hh | hh
            · left
              simp only [List.map_cons, List.mem_cons] at hh
              exact hh.resolve_left (fun h => hij h.symm)
            · right
              intro o' ho'
              rw [List.getElem?_set_ne hij] at ho'
              exact hh o' ho'
      · rw [hf] at hn; cases hn

theorem feedZObjs_nd {offs : ℕ → ℤ} {z : Zone} {epics : List (Epic × Dict ℕ)} {t : Tick} (P : ZFrameSet → Prop)
    (hP : ∀ s c, P s → P (s.feed offs c t).1) (hn : ∀ s c, P s → (s.feed offs c t).2 ≠ some .diverge) (r : Dict ℕ) :
    ∀ objs : List ZObj, (∀ o ∈ objs, P o.set) → (feedZObjs offs z epics t objs r).2 ≠ some .diverge := by
  induction r with
  | nil => intro objs _ h; cases h
  | cons p r ih =>
    intro objs h
    obtain ⟨k, i⟩ := p
    unfold feedZObjs
    rcases hi : objs[i]? with _ | o
    · intro h; cases h
    · dsimp only
      have ho := h o (List.mem_of_getElem? hi)
      have h1 := hP _ (o.ctx z epics) ho
      have h2 := hn _ (o.ctx z epics) ho
      rcases hf : o.set.feed offs (o.ctx z epics) t with ⟨s, _ | err⟩
      · rw [hf] at h1
        apply ih
        intro o' ho'
        rcases List.mem_or_eq_of_mem_set ho' with h' | rfl
        · exact h o' h'
        · exact h1
      · rw [hf] at h2; exact h2

end
end Estrade
