import Verif.Lemmas.Calm

/-!
# The same tick twice

After a tick has been given to a frame set, the current frame and the values of its indicators are fixed points of another
delivery of that tick.
-/

set_option linter.unusedSectionVars false
set_option autoImplicit false

namespace Estrade

theorem Dict.set_get {β : Type} {d : Dict β} (hd : d.keys.Nodup) {k : String} {v : β} (h : d.get? k = some v) : d.set k v = d := by
  have hk : d.any (fun p => p.1 == k) = true := (Dict.any_key d k).mpr ((Dict.get?_isSome d k).mp ⟨v, h⟩)
  unfold Dict.set
  rw [if_pos hk]
  refine (List.map_congr_left ?_).trans (List.map_id' d)
  rintro ⟨k', v'⟩ hp
  by_cases he : k' = k
  · subst he
    have := Dict.get?_of_mem hd hp
    rw [h] at this
    cases this
    simp
  · have : (k' == k) = false := by simpa using he
    simp [this]

section
variable [Arith]

/-! ## Every frame has one entry per reference -/

theorem upsert_keys {heap : List Frame} {id : ℕ} {t : Tick} {mo : Bool} {reg : Dict Indicator} (hr : ∀ p ∈ reg, p.2.ref = p.1) :
    ∀ {f f' : Frame}, upsert heap id t mo reg f = .ok f' → f.inds.keys.Nodup →
    f'.inds.keys.Nodup ∧ (∀ k ∈ f.inds.keys, k ∈ f'.inds.keys) ∧ ∀ p ∈ reg, p.1 ∈ f'.inds.keys := by
  induction reg with
  | nil => intro f f' h hn; cases h; exact ⟨hn, fun k hk => hk, fun p hp => by cases hp⟩
  | cons p rest ih =>
    intro f f' h hn
    unfold upsert at h
    rw [List.foldlM_cons] at h
    simp only [bind, Except.bind] at h
    split at h
    · cases h
    rename_i g hg
    have hone : ∃ o, g = { f with inds := f.inds.set p.1 o } := by
      unfold upsertOne at hg
      simp only [bind, Except.bind] at hg
      split at hg
      · split at hg
        · cases hg
        · cases hg; exact ⟨_, rfl⟩
      · split at hg
        · cases hg
        · cases hg; rw [hr p List.mem_cons_self]; exact ⟨_, rfl⟩
    obtain ⟨o, rfl⟩ := hone
    have hmem : ∀ k, k ∈ (f.inds.set p.1 o).keys ↔ k = p.1 ∨ k ∈ f.inds.keys := by
      intro k
      rw [← Dict.get?_isSome, Dict.get?_set, ← Dict.get?_isSome]
      split_ifs with hk
      · subst hk; simp
      · constructor
        · intro h; exact .inr h
        · rintro (rfl | h)
          · exact absurd rfl hk
          · exact h
    obtain ⟨h1, h2, h3⟩ := ih (fun p hp => hr p (List.mem_cons_of_mem _ hp)) h (Dict.keys_set_nodup _ _ _ hn)
    refine ⟨h1, fun k hk => h2 k ((hmem k).mpr (.inr hk)), fun x hx => ?_⟩
    rcases List.mem_cons.mp hx with rfl | hx
    · exact h2 _ ((hmem _).mpr (.inl rfl))
    · exact h3 x hx

theorem RegOk.refs {d : Dict Indicator} (h : RegOk d) : ∀ p ∈ d, p.2.ref = p.1 :=
  fun p hp => h.2 p.1 p.2 (Dict.get?_of_mem h.1 hp)

theorem Built.keys {u : Unit'} {q m : ℤ} {fs : FrameSet} {A : List AF} (hB : Built u q m fs A) (hm : 1 ≤ m) :
    ∀ f ∈ fs.heap, f.inds.keys.Nodup := by
  induction hB with
  | new => intro f hf; cases hf
  | ind i _ ih => rw [addIndicator_fields]; exact ih
  | create c t ps pe hB h ih =>
    obtain ⟨g, hu, hb, -, -⟩ := createFrame_inv (hB.rep hm) (by rw [hB.fields.2.2]; exact hm) h
    intro f hf
    obtain ⟨i, hi⟩ := List.mem_iff_getElem?.mp hf
    have hbi := hb i
    rw [hi] at hbi
    obtain ⟨f0, hf0, hbare⟩ := Option.map_eq_some_iff.mp hbi.symm
    have hinds : f.inds = f0.inds := by
      have := congrArg Frame.inds hbare
      exact this.symm
    rw [hinds]
    rcases snoc_cases hf0 with ⟨-, h0⟩ | ⟨-, rfl⟩
    · exact ih f0 (List.mem_of_getElem? h0)
    · exact (upsert_keys hB.regOk.refs hu List.nodup_nil).1
  | add c t hB h ih =>
    rename_i fs fs' B x
    obtain ⟨f0, f1, h0, -, hu, hfs, -⟩ := addToLast_inv (hB.rep hm) (by rw [hB.fields.2.2]; exact hm) h
    intro f hf
    rw [hfs] at hf
    rcases List.mem_or_eq_of_mem_set hf with hx | rfl
    · exact ih f hx
    · refine (upsert_keys hB.regOk.refs hu ?_).1
      rw [track_eq]
      exact ih f0 (List.mem_of_getElem? h0)

/-! ## Values -/

theorem track_value_ordered {v : IndVal} (h : v.low.value ≤ v.high.value) (t : Tick) (mo : Bool) :
    (v.track t mo).low.value ≤ (v.track t mo).high.value := by
  unfold IndVal.track
  simp only
  split_ifs with h1 h2 h3
  · exact h.trans h2.le
  · exact h3.le.trans h
  · exact h
  · exact h

/-- Every value has a lowest tick not above its highest one. -/
theorem Built.ordered {u : Unit'} {q m : ℤ} {fs : FrameSet} {A : List AF} (hB : Built u q m fs A) (hm : 1 ≤ m) :
    ∀ f ∈ fs.heap, ∀ (r : String) (v : IndVal), f.get r = some v → v.low.value ≤ v.high.value := by
  refine hB.val_inv hm (fun v => v.low.value ≤ v.high.value) ?_ ?_
  · intro heap _ ind id f v hv
    rw [IndVal.new_fields hv]
    exact le_refl _
  · intro heap f v v' t mo hP h
    have hT := track_value_ordered hP t mo
    unfold IndVal.onNewTick at h
    simp only at h
    split at h
    · rw [updateRsi_fields h]; exact hT
    · cases h; exact hT

theorem track_twice {v : IndVal} (h : v.low.value ≤ v.high.value) (t : Tick) (mo : Bool) :
    (v.track t mo).track t mo = v.track t mo := by
  unfold IndVal.track
  simp only
  by_cases h1 : (!v.ind.marketOpenOnly || mo) = true
  · by_cases h2 : v.high.value < t.value
    · have h3 : ¬ t.value < v.low.value := not_lt.mpr (h.trans h2.le)
      simp only [h1, if_true, if_pos h2, lt_irrefl, if_false, if_neg h3]
    · by_cases h3 : t.value < v.low.value
      · simp only [h1, if_true, if_neg h2, if_pos h3, lt_irrefl, if_false]
      · simp only [h1, if_true, if_neg h2, if_neg h3]
  · simp only [h1, Bool.false_eq_true, if_false]

/-- What another delivery of the tick reads is what the first one read, or the frame has lost its predecessor. -/
def SamePast (heap heap' : List Frame) (f f' : Frame) : Prop :=
  f'.last = f.last ∧ (f'.prev = none ∨ f'.prev = f.prev ∧ ∀ p, f.prev = some p →
    (heap'[p]?).map Frame.last = (heap[p]?).map Frame.last)

theorem updateRsi_twice {heap heap' : List Frame} {f f' : Frame} (hs : SamePast heap heap' f f') {n : ℤ} (hn : n ≠ 0) {v v' : IndVal}
    (h : updateRsi heap f n v = .ok v') : updateRsi heap' f' n v' = .ok v' := by
  obtain ⟨hl, hp⟩ := hs
  have hc := (updateRsi_keeps h).1
  rcases hp with hp | ⟨hp, hh⟩
  · unfold updateRsi extendedChanges
    rw [hp]
    simp only [List.length_nil, Nat.cast_zero]
    rw [if_neg (by rintro ⟨-, h0⟩; exact hn h0.symm)]
  · have he : extendedChanges heap' v' f' = extendedChanges heap v f := by
      unfold extendedChanges
      rw [hp, hl, hc]
      rcases hfp : f.prev with _ | p
      · rfl
      · have := hh p hfp
        simp only
        revert this
        rcases heap[p]? with _ | g <;> rcases heap'[p]? with _ | g' <;> intro this
        · rfl
        · cases this
        · cases this
        · have hg : g'.last = g.last := Option.some.inj this
          simp only [hg]
    unfold updateRsi at h ⊢
    simp only at h ⊢
    rw [he]
    split_ifs at h ⊢
    · simp only [bind, Except.bind] at h ⊢
      split at h
      · cases h
      · rename_i r hr
        cases h
        rfl
    · rfl

theorem onNewTick_twice {heap heap' : List Frame} {f f' : Frame} (hs : SamePast heap heap' f f') {v v' : IndVal}
    (hv : v.low.value ≤ v.high.value) {t : Tick} {mo : Bool} (hk : ∀ p n, v.ind.kind = .rsi p (some n) → n ≠ 0)
    (h : v.onNewTick heap f t mo = .ok v') : v'.onNewTick heap' f' t mo = .ok v' := by
  have hi := (onNewTick_keeps h).2
  unfold IndVal.onNewTick at h ⊢
  simp only at h ⊢
  rw [hi]
  rcases hkind : v.ind.kind with _ | _ | _ | _ | _ | mp | ⟨p, _ | n⟩ <;> rw [hkind] at h <;> simp only at h ⊢
  case rsi.some =>
    have ht : v'.track t mo = v' := by
      rw [updateRsi_fields h]
      have hx := track_twice hv t mo
      generalize v'.rsi = r
      have : ∀ w : IndVal, ({ w with rsi := r } : IndVal).track t mo = { w.track t mo with rsi := r } := by
        intro w
        unfold IndVal.track
        simp only
        split_ifs <;> rfl
      rw [this, hx]
    rw [ht]
    exact updateRsi_twice hs (hk p n hkind) h
  all_goals (cases h; rw [track_twice hv])

theorem build_then_tick {heap heap' : List Frame} {f f' : Frame} (hs : SamePast heap heap' f f') {ind : Indicator} {id : ℕ} {v : IndVal} {mo : Bool}
    (h : IndVal.new heap ind id f = .ok v) : v.onNewTick heap' f' f.last mo = .ok v := by
  have hf := IndVal.new_fields h
  have hi : v.ind = ind := by rw [hf]; rfl
  have ht : v.track f.last mo = v := by
    rw [hf]
    unfold IndVal.track IndVal.base
    simp only [lt_irrefl, ite_self]
  unfold IndVal.onNewTick
  simp only
  rw [hi, ht]
  rcases hk : ind.kind with _ | _ | _ | _ | _ | mp | ⟨p, _ | n⟩ <;> try rfl
  simp only
  by_cases hn : n = 0
  · unfold IndVal.new at h; rw [hk] at h; simp [hn] at h
  · rw [IndVal.new_rsi hk hn] at h
    split at h
    · cases h
    · exact updateRsi_twice hs hn h

/-- Values of an RSI have a non-zero window. -/
theorem Built.windows {u : Unit'} {q m : ℤ} {fs : FrameSet} {A : List AF} (hB : Built u q m fs A) (hm : 1 ≤ m) :
    ∀ f ∈ fs.heap, ∀ (r : String) (v : IndVal), f.get r = some v → ∀ p n, v.ind.kind = .rsi p (some n) → n ≠ 0 := by
  refine hB.val_inv hm (fun v => ∀ p n, v.ind.kind = .rsi p (some n) → n ≠ 0) ?_ ?_
  · intro heap _ ind id f v hv p n hk hn
    have hi : v.ind = ind := by rw [IndVal.new_fields hv]; rfl
    rw [hi] at hk
    unfold IndVal.new at hv
    rw [hk] at hv
    simp [hn] at hv
  · intro heap f v v' t mo hP h
    rw [(onNewTick_keeps h).2]
    exact hP

/-! ## Frames -/

/-- The indicators of `reg` have nothing to do on frame `f`. -/
theorem upsert_settled {heap heap' : List Frame} {id : ℕ} {mo : Bool} {reg : Dict Indicator} (hreg : RegOk reg) {f0 f f' : Frame}
    (hu : upsert heap id f0.last mo reg f0 = .ok f) (hk : f0.inds.keys.Nodup)
    (hv : ∀ r v, f0.get r = some v → v.low.value ≤ v.high.value ∧ ∀ p n, v.ind.kind = .rsi p (some n) → n ≠ 0)
    (hi : f'.inds = f.inds) (hs : SamePast heap heap' f0 f') : upsert heap' id f0.last mo reg f' = .ok f' := by
  obtain ⟨hn, -, hmem⟩ := upsert_keys hreg.refs hu hk
  have hone : ∀ p ∈ reg, upsertOne heap' id f0.last mo f' p = .ok f' := by
    rintro ⟨r, ind⟩ hp
    have hg : reg.get? r = some ind := Dict.get?_of_mem hreg.1 hp
    have href : ind.ref = r := hreg.2 r ind hg
    have hstep := (hreg.upsert_get r hu).2 ind hg
    have hget : f'.get r = f.get r := by unfold Frame.get; rw [hi]
    obtain ⟨o, ho⟩ := (Dict.get?_isSome _ _).mpr (hmem _ hp)
    have hfo : f.get r = o := by unfold Frame.get; rw [ho]; rfl
    have hset : ∀ x, o = x → { f' with inds := f'.inds.set r x } = f' := by
      rintro x rfl
      rw [hi, Dict.set_get hn ho, ← hi]
    unfold upsertOne
    simp only
    rw [hget, hfo]
    rw [hfo] at hstep
    rcases ho' : o with _ | v'
    · simp only
      rw [ho'] at hstep
      have hb : ind.build heap' id f' mo = .ok none := by
        rcases h0 : f0.get r with _ | v
        · rw [h0] at hstep
          have hstep : ind.build heap id f0 mo = .ok none := hstep
          unfold Indicator.build at hstep ⊢
          split_ifs at hstep ⊢
          · simp only [bind, Except.bind] at hstep
            split at hstep <;> cases hstep
          · rfl
        · rw [h0] at hstep
          obtain ⟨x, -, hx⟩ := hstep
          cases hx
      rw [hb, href]
      exact congrArg Except.ok (hset none ho')
    · simp only
      rw [ho'] at hstep
      have hb : v'.onNewTick heap' f' f0.last mo = .ok v' := by
        rcases h0 : f0.get r with _ | v
        · rw [h0] at hstep
          have hstep : ind.build heap id f0 mo = .ok (some v') := hstep
          unfold Indicator.build at hstep
          split_ifs at hstep
          · simp only [bind, Except.bind] at hstep
            split at hstep
            · cases hstep
            · rename_i x hx
              cases hstep
              exact build_then_tick hs hx
          · cases hstep
        · rw [h0] at hstep
          obtain ⟨x, hx, hxe⟩ := hstep
          cases hxe
          exact onNewTick_twice hs (hv r v h0).1 (hv r v h0).2 hx
      rw [hb]
      exact congrArg Except.ok (hset (some v') ho')
  have : ∀ l : Dict Indicator, (∀ p ∈ l, upsertOne heap' id f0.last mo f' p = .ok f') →
      l.foldlM (upsertOne heap' id f0.last mo) f' = .ok f' := by
    intro l
    induction l with
    | nil => intro _; rfl
    | cons p l ih =>
      intro h
      rw [List.foldlM_cons, h p List.mem_cons_self]
      exact ih (fun x hx => h x (List.mem_cons_of_mem _ hx))
  exact this reg hone

/-- A tick that a frame has seen as its last one only counts. -/
theorem track_seen {a : AF} {g : Frame} (hc : Core a g) {t : Tick} (ht : (a.evs.map Ev.tick).getLast? = some t) :
    g.last = t ∧ g.track t = { g with nbTicks := g.nbTicks + 1 } := by
  have hl : g.last = t := by
    have := hc.sum.last
    rw [ht] at this
    exact (Option.some.inj this).symm
  have hmem : t ∈ a.evs.map Ev.tick := List.mem_of_getLast? ht
  have h1 : ¬ g.high.value < t.value := not_lt.mpr (hc.sum.le_high t hmem)
  have h2 : ¬ t.value < g.low.value := not_lt.mpr (hc.sum.low_le t hmem)
  refine ⟨hl, ?_⟩
  unfold Frame.track
  simp only
  rw [if_neg h1, if_neg h2, ← hl]

/-- The last thing an accepted tick does. -/
theorem step_last {u : Unit'} {q m : ℤ} (hm : 1 ≤ m) {fs fs' : FrameSet} {A : List AF} {c : Ctx} {t : Tick} (hB : Built u q m fs A)
    (h : fs.onNewTick c t = .ok fs') : ∃ gs A', Built u q m gs A' ∧ gs.indicators = fs.indicators ∧
      ((∃ ps pe, gs.createFrame c t ps pe = .ok fs' ∧
        (u ≠ .tick → frameStart u q t.dt.wall = .ok ps ∧ pe = some (frameEnd c.zone u q ps))) ∨
      (∃ B a, A' = B ++ [a] ∧ gs.addToLast c t = .ok fs' ∧ (u ≠ .tick → ∃ pe, a.stop = some pe ∧ t.dt.wall < pe))) := by
  have hmf : 1 ≤ fs.maxFrames := by rw [hB.fields.2.2]; exact hm
  unfold FrameSet.onNewTick at h
  split_ifs at h with h1 h2
  · exact ⟨fs, A, hB, rfl, .inl ⟨_, _, h, fun hu => absurd (hB.fields.1 ▸ h1) hu⟩⟩
  · rcases List.eq_nil_or_concat A with rfl | ⟨B, a, rfl⟩
    · exfalso
      apply h2
      unfold FrameSet.overTick
      rw [(hB.rep hm).current_none]
    · rw [List.concat_eq_append] at hB
      exact ⟨fs, _, hB, rfl, .inr ⟨B, a, rfl, h, fun hu => absurd (hB.fields.1 ▸ h1) hu⟩⟩
  · simp only [bind, Except.bind] at h
    split at h
    · cases h
    · rename_i b hb
      cases b with
      | true =>
        simp only [if_true] at h
        unfold FrameSet.createTimed at h
        simp only [bind, Except.bind] at h
        split at h
        · cases h
        · rename_i ps hps
          split at h
          · cases h
          · rename_i fs1 hfl
            obtain ⟨e1, F, hB1⟩ := fillLoop_built _ _ _ _ hB hfl
            refine ⟨fs1, _, hB1, e1, .inl ⟨_, _, h, fun _ => ?_⟩⟩
            rw [hB.fields.1, hB.fields.2.1] at *
            exact ⟨hps, rfl⟩
      | false =>
        simp only [Bool.false_eq_true, if_false] at h
        rcases List.eq_nil_or_concat A with rfl | ⟨B, a, rfl⟩
        · unfold FrameSet.overTimed at hb
          rw [(hB.rep hm).current_none] at hb
          cases hb
        · rw [List.concat_eq_append] at hB
          refine ⟨fs, _, hB, rfl, .inr ⟨B, a, rfl, h, fun _ => ?_⟩⟩
          obtain ⟨f, hc, hg, hco⟩ := (hB.rep hm).current hmf
          unfold FrameSet.overTimed at hb
          rw [hc] at hb
          simp only at hb
          rcases hpe : f.periodEnd with _ | pe
          · rw [hpe] at hb; cases hb
          · rw [hpe] at hb
            simp only [Except.ok.injEq, decide_eq_false_iff_not, not_le] at hb
            exact ⟨pe, by rw [← hco.stop, hpe], hb⟩

/-- After a tick the same tick would go to the current frame of a timed frame set, and only count there. -/
theorem tick_twice {u : Unit'} {q m : ℤ} (hT : Tiles u q) (hm : 1 ≤ m) {fs fs' : FrameSet} {A : List AF} {c : Ctx} {t : Tick}
    (hz : ∀ x, x ≤ c.zone.resolve x) (hB : Built u q m fs A) (h : fs.onNewTick c t = .ok fs') :
    ∃ i f, fs'.current = some (i, f) ∧ fs'.heap[i]? = some f ∧
      fs'.onNewTick c t = .ok { fs' with heap := fs'.heap.set i { f with nbTicks := f.nbTicks + 1 } } := by
  obtain ⟨gs, A', hG, hind, hcase⟩ := step_last hm hB h
  have hR := hG.rep hm
  have hM : gs.maxFrames = m := hG.fields.2.2
  have hmg : 1 ≤ gs.maxFrames := by rw [hM]; exact hm
  -- the end: an upsert that changes nothing
  have finish : ∀ (B : List AF) (a : AF) (g : Frame) (pe : ℤ), fs'.unit = u → fs'.current = some (B.length, g) →
      fs'.heap[B.length]? = some g → Core a g → (a.evs.map Ev.tick).getLast? = some t → a.stop = some pe → t.dt.wall < pe →
      upsert fs'.heap B.length t c.marketOpen fs'.indicators (g.track t) = .ok (g.track t) →
      ∃ i f, fs'.current = some (i, f) ∧ fs'.heap[i]? = some f ∧
        fs'.onNewTick c t = .ok { fs' with heap := fs'.heap.set i { f with nbTicks := f.nbTicks + 1 } } := by
    intro B a g pe hu hc hg hco ht hpe hlt hup
    refine ⟨B.length, g, hc, hg, ?_⟩
    have hno : fs'.overTimed t = .ok false := by
      unfold FrameSet.overTimed
      rw [hc]
      simp only [hco.stop, hpe, not_le.mpr hlt, decide_false]
    unfold FrameSet.onNewTick
    rw [if_neg (by rw [hu]; exact hT.ne_tick), hno]
    simp only [bind, Except.bind, Bool.false_eq_true, if_false]
    unfold FrameSet.addToLast
    rw [hc]
    simp only [bind, Except.bind]
    rw [hup, (track_seen hco ht).2]
  rcases hcase with ⟨ps, pe, hcr, hps⟩ | ⟨B, a, rfl, hadd, hlt⟩
  · obtain ⟨e1, e2⟩ := hps hT.ne_tick
    have hwall : t.dt.wall < frameEnd c.zone u q ps := by
      have e1 := frameStart_ok hT e1
      obtain ⟨g1, g2⟩ := gidx_spec hT t.dt.wall
      rw [e1, frameEnd_grid hT]
      exact g2.trans_le (hz _)
    have hF := Built.create c t ps pe hG hcr
    have hR' := hF.rep hm
    have hM' : fs'.maxFrames = m := hF.fields.2.2
    obtain ⟨f, hu, hb, hfs, -⟩ := createFrame_inv hR hmg hcr
    obtain ⟨g, hc, hg, hco⟩ := hR'.current (by rw [hM']; exact hm)
    have hI : fs'.indicators = gs.indicators := by rw [hfs]
    have hlen := hR.len
    have hbare : g.bare = f.bare := by
      have := hb A'.length
      rw [hg, ← hlen, List.getElem?_append_right le_rfl, Nat.sub_self] at this
      exact Option.some.inj this
    have hinds : g.inds = f.inds := by have := congrArg Frame.inds hbare; exact this
    refine finish A' _ g _ hF.fields.1 hc hg hco rfl e2 hwall ?_
    obtain ⟨hlast, htr⟩ := track_seen hco (t := t) rfl
    rw [hI, ← hlen]
    refine upsert_settled (heap := gs.heap) (f0 := Frame.fresh t ps pe gs.frames.getLast?) (f := f) (f' := g.track t) hG.regOk hu
      List.nodup_nil (fun r v hv => by cases hv) (by rw [htr]; exact hinds) ⟨by rw [htr]; exact hlast, ?_⟩
    have hpr := hR'.prev A'.length g hg
    rw [htr]
    change g.prev = none ∨ g.prev = gs.frames.getLast? ∧ ∀ p, gs.frames.getLast? = some p →
      (fs'.heap[p]?).map Frame.last = (gs.heap[p]?).map Frame.last
    rw [hpr, hR.getLast hmg]
    split_ifs with c1 c2
    · simp at c1
      omega
    · right
      refine ⟨rfl, fun p hp => ?_⟩
      cases hp
      have hbp := hb (A'.length - 1)
      rw [List.getElem?_append_left (by omega)] at hbp
      revert hbp
      rcases gs.heap[A'.length - 1]? with _ | x <;> rcases fs'.heap[A'.length - 1]? with _ | y <;> intro hbp
      · rfl
      · cases hbp
      · cases hbp
      · have := congrArg Frame.last (Option.some.inj hbp)
        exact congrArg some this
    · exact .inl rfl
    · exact .inl rfl
  · have hF := Built.add c t hG hadd
    have hR' := hF.rep hm
    have hM' : fs'.maxFrames = m := hF.fields.2.2
    obtain ⟨f0, f, h0, hco0, hu, hfs, -⟩ := addToLast_inv hR hmg hadd
    obtain ⟨g, hc, hg, hco⟩ := hR'.current (by rw [hM']; exact hm)
    obtain ⟨pe, hpe, hw⟩ := hlt hT.ne_tick
    have hlt0 : B.length < gs.heap.length := (List.getElem?_eq_some_iff.mp h0).1
    have hgf : g = f := by
      rw [hfs] at hg
      simp only [List.getElem?_set_self hlt0] at hg
      exact (Option.some.inj hg).symm
    subst hgf
    have htick : (f0.track t).last = t := by rw [track_eq]
    have hseen : (({ a with evs := a.evs ++ [⟨t, c.marketOpen, gs.indicators⟩] } : AF).evs.map Ev.tick).getLast? = some t := by
      simp
    refine finish B _ g pe hF.fields.1 hc hg hco hseen hpe hw ?_
    obtain ⟨hlast, htr⟩ := track_seen hco hseen
    have hmem : f0 ∈ gs.heap := List.mem_of_getElem? h0
    have hget : ∀ r, (f0.track t).get r = f0.get r := by intro r; rw [track_eq]; rfl
    have hkeys : (f0.track t).inds = f0.inds := by rw [track_eq]
    have hpr0 := hR.prev B.length f0 h0
    have hprev : (f0.track t).prev = f0.prev := by rw [track_eq]
    have hgprev : g.prev = f0.prev := by rw [upsert_inds hu]; exact hprev
    have key := upsert_settled (heap := gs.heap) (heap' := fs'.heap) (id := B.length) (mo := c.marketOpen) (f0 := f0.track t) (f := g)
      (f' := g.track t) hG.regOk (by rw [htick]; exact hu) (by rw [hkeys]; exact hG.keys hm f0 hmem)
      (fun r v hv => ⟨hG.ordered hm f0 hmem r v ((hget r).symm.trans hv), hG.windows hm f0 hmem r v ((hget r).symm.trans hv)⟩)
      (by rw [htr]) ⟨by rw [htr, htick]; exact hlast, .inr ⟨by rw [htr, hprev]; exact hgprev, fun p hp => ?_⟩⟩
    · rw [htick] at key
      rw [hfs] at key ⊢
      exact key
    · rw [hprev, hpr0] at hp
      split_ifs at hp with c1
      cases hp
      rw [hfs]
      have hne : B.length ≠ B.length - 1 := by
        simp at c1
        omega
      simp only [List.getElem?_set_ne hne]

end
end Estrade
