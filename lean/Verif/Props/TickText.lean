import Verif.TickText
import Verif.Props.CsvText

/-!
# C105: what the text and the dictionary of a tick tell
-/

namespace Estrade

set_option linter.style.haveILetI false
set_option linter.unusedSectionVars false
set_option autoImplicit false

/-! ## Specification -/

/-- Spec: an entry of a dictionary passed as datetime to `Tick(...)`: a string has no tzinfo. -/
def Spec.cellDate : Option TickCell → RawDT
  | some (.date d) => .aware d
  | _ => .naive

/-- Spec: an entry of a dictionary passed as `bid` or `ask` to `Tick(...)`. -/
def Spec.cellNum : Option TickCell → PyVal
  | some (.num x) => .float x
  | _ => .other

/-- Spec: alphabetical order of texts: a proper beginning is before, otherwise the first difference decides. -/
def Spec.textLt : Text → Text → Prop
  | _, [] => False
  | [], _ :: _ => True
  | a :: s, b :: t => a.toNat < b.toNat ∨ (a = b ∧ Spec.textLt s t)

/-- Spec: the whole seconds that a wall clock shows. -/
def Spec.seconds (d : DT) : ℤ := d.wall / 1000000

section
variable [Arith]

/-- Spec: what is used of `repr`: different floats have different texts, without spaces, commas and parentheses. -/
structure Spec.FloatText (num : ℚ → Text) : Prop where
  inj : ∀ x y, fl x = x → fl y = y → num x = num y → x = y
  plain : ∀ x, fl x = x → ∀ c ∈ num x, c ≠ ' ' ∧ c ≠ ',' ∧ c ≠ ')'

/-- Spec: the quotes of a tick are floats. -/
def Spec.FloatTick (t : Tick) : Prop := fl t.bid = t.bid ∧ fl t.ask = t.ask

end

/-! ## Texts -/

theorem cut_at {c : Char} : ∀ {x y s t : Text}, (∀ a ∈ x, a ≠ c) → (∀ a ∈ y, a ≠ c) → x ++ c :: s = y ++ c :: t → x = y ∧ s = t := by
  intro x
  induction x with
  | nil =>
    intro y s t _ hy h
    rcases y with _ | ⟨b, y⟩
    · exact ⟨rfl, by simpa using h⟩
    · exfalso
      simp only [List.nil_append, List.cons_append, List.cons.injEq] at h
      exact hy b (List.mem_cons_self ..) h.1.symm
  | cons a x ih =>
    intro y s t hx hy h
    rcases y with _ | ⟨b, y⟩
    · exfalso
      simp only [List.nil_append, List.cons_append, List.cons.injEq] at h
      exact hx a (List.mem_cons_self ..) h.1
    · simp only [List.cons_append, List.cons.injEq] at h
      obtain ⟨rfl, h⟩ := h
      obtain ⟨rfl, rfl⟩ := ih (fun a ha => hx a (List.mem_cons_of_mem _ ha)) (fun a ha => hy a (List.mem_cons_of_mem _ ha)) h
      exact ⟨rfl, rfl⟩

theorem digits_lt {n : ℕ} : ∀ d ∈ Nat.digits 10 n, d < 10 := fun _ h => Nat.digits_lt_base (by decide) h

theorem natText_digits (n : ℕ) : ∃ l : List ℕ, (∀ d ∈ l, d < 10) ∧ natText n = l.map digitChar := by
  unfold natText
  split_ifs
  · exact ⟨[0], by simp, rfl⟩
  · exact ⟨_, fun d hd => digits_lt d (List.mem_reverse.mp hd), rfl⟩

theorem padText_digits (k n : ℕ) : ∃ l : List ℕ, (∀ d ∈ l, d < 10) ∧ padText k n = l.map digitChar := by
  obtain ⟨l, h1, h2⟩ := natText_digits n
  refine ⟨List.replicate (k - (natText n).length) 0 ++ l, ?_, ?_⟩
  · intro d hd
    rcases List.mem_append.mp hd with hd | hd
    · rw [(List.mem_replicate.mp hd).2]; decide
    · exact h1 d hd
  · unfold padText
    rw [List.map_append, List.map_replicate, ← h2]
    rfl

theorem digitChar_toNat : ∀ d, d < 10 → (digitChar d).toNat = 48 + d := by decide +kernel

theorem digits_plain {l : List ℕ} (h : ∀ d ∈ l, d < 10) : ∀ c ∈ l.map digitChar, 48 ≤ c.toNat ∧ c.toNat ≤ 57 := by
  intro c hc
  obtain ⟨d, hd, rfl⟩ := List.mem_map.mp hc
  have := h d hd
  rw [digitChar_toNat d this]
  omega

theorem natText_ne (n : ℕ) {c : Char} (hc : c.toNat < 48 ∨ 57 < c.toNat) : ∀ a ∈ natText n, a ≠ c := by
  obtain ⟨l, h1, h2⟩ := natText_digits n
  intro a ha h
  rw [h2] at ha
  have := digits_plain h1 a ha
  rw [h] at this
  omega

theorem padText_ne (k n : ℕ) {c : Char} (hc : c.toNat < 48 ∨ 57 < c.toNat) : ∀ a ∈ padText k n, a ≠ c := by
  obtain ⟨l, h1, h2⟩ := padText_digits k n
  intro a ha h
  rw [h2] at ha
  have := digits_plain h1 a ha
  rw [h] at this
  omega

theorem natText_inj {m n : ℕ} (h : natText m = natText n) : m = n := by
  rw [← readNat_natText m, ← readNat_natText n, h]

theorem padText_inj {k m n : ℕ} (h : padText k m = padText k n) : m = n := by
  rw [← readNat_padText k m, ← readNat_padText k n, h]

/-- The fields of a wall clock are in their ranges. -/
theorem field_ranges (w : ℤ) : (1 ≤ monthOf w ∧ monthOf w ≤ 12) ∧ (1 ≤ dayOf w ∧ dayOf w ≤ 31) ∧ (0 ≤ hourOf w ∧ hourOf w < 24) ∧
    (0 ≤ minuteOf w ∧ minuteOf w < 60) ∧ (0 ≤ secondOf w ∧ secondOf w < 60) := by
  obtain ⟨hv, _⟩ := ord2ymd_spec (ordOf w)
  refine ⟨⟨hv.1, hv.2.1⟩, ⟨hv.2.2.1, hv.2.2.2.trans (daysInMonth_pos _ _).2⟩, ?_, ?_, ?_⟩
  · unfold hourOf timeOf dayUs hourUs minUs secUs; omega
  · unfold minuteOf timeOf dayUs hourUs minUs secUs; omega
  · unfold secondOf timeOf dayUs hourUs minUs secUs; omega

/-- The seconds shown are those of the fields. -/
theorem seconds_fields (d : DT) : Spec.seconds d = 86400 * ordOf d.wall + 3600 * hourOf d.wall + 60 * minuteOf d.wall + secondOf d.wall := by
  unfold Spec.seconds ordOf hourOf minuteOf secondOf timeOf dayUs hourUs minUs secUs
  omega

/-- Dates are ordered by year, then month, then day. -/
theorem ordOf_lt_iff (w w' : ℤ) : ordOf w < ordOf w' ↔ yearOf w < yearOf w' ∨ (yearOf w = yearOf w' ∧ (monthOf w < monthOf w' ∨
    (monthOf w = monthOf w' ∧ dayOf w < dayOf w'))) := by
  obtain ⟨a1, a2, a3⟩ := midx_spec (ordOf w)
  obtain ⟨b1, b2, b3⟩ := midx_spec (ordOf w')
  have r := (field_ranges w).1
  have r' := (field_ranges w').1
  have e : midx (ordOf w) = 12 * yearOf w + (monthOf w - 1) := rfl
  have e' : midx (ordOf w') = 12 * yearOf w' + (monthOf w' - 1) := rfl
  have f : (ord2ymd (ordOf w)).d = dayOf w := rfl
  have f' : (ord2ymd (ordOf w')).d = dayOf w' := rfl
  rw [f] at a3; rw [f'] at b3
  rcases lt_trichotomy (midx (ordOf w)) (midx (ordOf w')) with h | h | h
  · have := mfirst_strictMono.monotone (show midx (ordOf w) + 1 ≤ midx (ordOf w') by omega)
    rw [e, e'] at h
    constructor
    · intro _; omega
    · intro _; omega
  · rw [h] at a3
    rw [e, e'] at h
    constructor
    · intro _; omega
    · intro _; omega
  · have := mfirst_strictMono.monotone (show midx (ordOf w') + 1 ≤ midx (ordOf w) by omega)
    rw [e, e'] at h
    constructor
    · intro _; omega
    · intro _; omega

theorem ordOf_eq_of {w w' : ℤ} (hy : yearOf w = yearOf w') (hm : monthOf w = monthOf w') (hd : dayOf w = dayOf w') : ordOf w = ordOf w' := by
  rcases lt_trichotomy (ordOf w) (ordOf w') with h | h | h
  · have := (ordOf_lt_iff w w').mp h; omega
  · exact h
  · have := (ordOf_lt_iff w' w).mp h; omega

theorem fields_eq_of_seconds {d d' : DT} (h : Spec.seconds d = Spec.seconds d') : yearOf d.wall = yearOf d'.wall ∧ monthOf d.wall = monthOf d'.wall ∧
    dayOf d.wall = dayOf d'.wall ∧ hourOf d.wall = hourOf d'.wall ∧ minuteOf d.wall = minuteOf d'.wall ∧ secondOf d.wall = secondOf d'.wall := by
  have ho : ordOf d.wall = ordOf d'.wall := by
    unfold Spec.seconds at h; unfold ordOf dayUs hourUs minUs secUs; omega
  unfold yearOf monthOf dayOf
  rw [ho]
  refine ⟨rfl, rfl, rfl, ?_, ?_, ?_⟩
  · unfold Spec.seconds at h; unfold hourOf timeOf dayUs hourUs minUs secUs; omega
  · unfold Spec.seconds at h; unfold minuteOf timeOf dayUs hourUs minUs secUs; omega
  · unfold Spec.seconds at h; unfold secondOf timeOf dayUs hourUs minUs secUs; omega

/-- Two datetimes have the same text exactly if they show the same second. -/
theorem strfText_iff {d d' : DT} (hd : 0 ≤ yearOf d.wall) (hd' : 0 ≤ yearOf d'.wall) (s s' : Text) :
    strfText d ++ ' ' :: s = strfText d' ++ ' ' :: s' ↔ Spec.seconds d = Spec.seconds d' ∧ s = s' := by
  constructor
  · intro h
    unfold strfText at h
    simp only [List.append_assoc, List.cons_append] at h
    obtain ⟨h1, h⟩ := cut_at (natText_ne _ (by decide)) (natText_ne _ (by decide)) h
    obtain ⟨h2, h⟩ := cut_at (padText_ne _ _ (by decide)) (padText_ne _ _ (by decide)) h
    obtain ⟨h3, h⟩ := cut_at (padText_ne _ _ (by decide)) (padText_ne _ _ (by decide)) h
    obtain ⟨h4, h⟩ := cut_at (padText_ne _ _ (by decide)) (padText_ne _ _ (by decide)) h
    obtain ⟨h5, h⟩ := cut_at (padText_ne _ _ (by decide)) (padText_ne _ _ (by decide)) h
    obtain ⟨h6, h⟩ := cut_at (padText_ne _ _ (by decide)) (padText_ne _ _ (by decide)) h
    have k1 := natText_inj h1
    have k2 := padText_inj h2
    have k3 := padText_inj h3
    have k4 := padText_inj h4
    have k5 := padText_inj h5
    have k6 := padText_inj h6
    obtain ⟨r1, r2, r3, r4, r5⟩ := field_ranges d.wall
    obtain ⟨q1, q2, q3, q4, q5⟩ := field_ranges d'.wall
    have ho : ordOf d.wall = ordOf d'.wall := ordOf_eq_of (by omega) (by omega) (by omega)
    refine ⟨?_, h⟩
    rw [seconds_fields, seconds_fields, ho]
    omega
  · rintro ⟨h, rfl⟩
    obtain ⟨e1, e2, e3, e4, e5, e6⟩ := fields_eq_of_seconds h
    unfold strfText
    rw [e1, e2, e3, e4, e5, e6]

section
variable [Arith]

/-! ## The dictionary -/

/-- C105: the dictionary has the attributes of the tick under five keys; with strings for datetimes, only the datetime differs. -/
theorem C105_dict (t : Tick) (b : Bool) :
    (t.asdict b).map Prod.fst = ["datetime", "bid", "ask", "spread", "value"] ∧
    (t.asdict b).get? "bid" = some (.num t.bid) ∧ (t.asdict b).get? "ask" = some (.num t.ask) ∧
    (t.asdict b).get? "spread" = some (.num t.spread) ∧ (t.asdict b).get? "value" = some (.num t.value) ∧
    (t.asdict false).get? "datetime" = some (.date t.dt) ∧ (∃ s, (t.asdict true).get? "datetime" = some (.text s)) ∧
    ∀ k, k ≠ "datetime" → (t.asdict true).get? k = (t.asdict false).get? k := by
  refine ⟨rfl, rfl, rfl, rfl, rfl, rfl, ⟨_, rfl⟩, ?_⟩
  intro k hk
  unfold Tick.asdict Dict.get?
  simp only [List.find?_cons]
  have : ("datetime" == k) = false := by simpa using fun h => hk h.symm
  simp only [this]

/-- C105: the tick can be made again from its dictionary exactly if its bid does not exceed its ask (an assignment to `bid` or `ask` of a tick is not
checked); otherwise that raises TickException.  With a string for the datetime it raises TimeException. -/
theorem C105_rebuild (t : Tick) :
    (t.bid ≤ t.ask → Tick.new (Spec.cellDate ((t.asdict false).get? "datetime")) (Spec.cellNum ((t.asdict false).get? "bid"))
      (Spec.cellNum ((t.asdict false).get? "ask")) = .ok t) ∧
    (t.ask < t.bid → Tick.new (Spec.cellDate ((t.asdict false).get? "datetime")) (Spec.cellNum ((t.asdict false).get? "bid"))
      (Spec.cellNum ((t.asdict false).get? "ask")) = .error .tick) ∧
    Tick.new (Spec.cellDate ((t.asdict true).get? "datetime")) (Spec.cellNum ((t.asdict true).get? "bid"))
      (Spec.cellNum ((t.asdict true).get? "ask")) = .error .time := by
  refine ⟨?_, ?_, rfl⟩
  · intro h
    change (if t.ask < t.bid then Except.error PyErr.tick else .ok (⟨t.dt, t.bid, t.ask⟩ : Tick)) = .ok t
    rw [if_neg (not_lt.mpr h)]
  · intro h
    change (if t.ask < t.bid then Except.error PyErr.tick else .ok (⟨t.dt, t.bid, t.ask⟩ : Tick)) = .error .tick
    rw [if_pos h]

/-- A tick, and the same after the assignment of a bid above the ask. -/
example : letI := Arith.exact
    (⟨⟨0, 0, 0⟩, 49, 50⟩ : Tick).bid ≤ (⟨⟨0, 0, 0⟩, 49, 50⟩ : Tick).ask ∧
    ∃ t, (⟨⟨0, 0, 0⟩, 49, 50⟩ : Tick).setBid (.int 51) = .ok t ∧ t.ask < t.bid := by
  letI := Arith.exact
  refine ⟨by decide +kernel, ⟨⟨0, 0, 0⟩, 51, 50⟩, by decide +kernel, by decide +kernel⟩

/-! ## The text -/

/-- C105: the text begins with the datetime string of the dictionary, followed by the other values of the dictionary. -/
theorem C105_text_dict (num : ℚ → Text) (t : Tick) : ∃ s v b a sp, (t.asdict true).get? "datetime" = some (.text s) ∧
    (t.asdict true).get? "value" = some (.num v) ∧ (t.asdict true).get? "bid" = some (.num b) ∧
    (t.asdict true).get? "ask" = some (.num a) ∧ (t.asdict true).get? "spread" = some (.num sp) ∧
    t.text num = s ++ [' ', ':', ' '] ++ num v ++ [' ', '(', 'b', 'i', 'd', ':', ' '] ++ num b ++ [',', ' ', 'a', 's', 'k', ':', ' '] ++
      num a ++ [',', ' ', 's', 'p', 'r', 'e', 'a', 'd', ':', ' '] ++ num sp ++ [')'] :=
  ⟨_, _, _, _, _, rfl, rfl, rfl, rfl, rfl, by
    unfold Tick.text
    simp only [List.append_assoc]
    rfl⟩

theorem tickText_eq (num : ℚ → Text) (t : Tick) : t.text num = strfText t.dt ++ ' ' :: ':' :: ' ' :: (num t.value ++ ' ' :: '(' :: 'b' :: 'i' :: 'd' ::
    ':' :: ' ' :: (num t.bid ++ ',' :: ' ' :: 'a' :: 's' :: 'k' :: ':' :: ' ' :: (num t.ask ++ ',' :: ' ' :: 's' :: 'p' :: 'r' :: 'e' :: 'a' :: 'd' ::
    ':' :: ' ' :: (num t.spread ++ [')'])))) := by
  unfold Tick.text
  simp only [List.append_assoc]
  rfl

/-- C105: the text tells the second of the wall clock and the quotes, and nothing else: two ticks have the same text exactly if they agree on these. -/
theorem C105_text (num : ℚ → Text) (hn : Spec.FloatText num) (t t' : Tick) (ht : Spec.FloatTick t) (ht' : Spec.FloatTick t')
    (hy : 0 ≤ yearOf t.dt.wall) (hy' : 0 ≤ yearOf t'.dt.wall) :
    t.text num = t'.text num ↔ Spec.seconds t.dt = Spec.seconds t'.dt ∧ t.bid = t'.bid ∧ t.ask = t'.ask := by
  constructor
  · intro h
    rw [tickText_eq, tickText_eq] at h
    obtain ⟨h1, h⟩ := (strfText_iff hy hy' _ _).mp h
    simp only [List.cons.injEq, true_and] at h
    obtain ⟨h2, h⟩ := cut_at (fun c hc => (hn.plain _ (fl_rnd _) c hc).1) (fun c hc => (hn.plain _ (fl_rnd _) c hc).1) h
    simp only [List.cons.injEq, true_and] at h
    obtain ⟨h3, h⟩ := cut_at (fun c hc => (hn.plain _ ht.1 c hc).2.1) (fun c hc => (hn.plain _ ht'.1 c hc).2.1) h
    simp only [List.cons.injEq, true_and] at h
    obtain ⟨h4, h⟩ := cut_at (fun c hc => (hn.plain _ ht.2 c hc).2.1) (fun c hc => (hn.plain _ ht'.2 c hc).2.1) h
    exact ⟨h1, hn.inj _ _ ht.1 ht'.1 h3, hn.inj _ _ ht.2 ht'.2 h4⟩
  · rintro ⟨h1, h2, h3⟩
    have hs : t.spread = t'.spread := by unfold Tick.spread; rw [h2, h3]
    have hv : t.value = t'.value := by unfold Tick.value; rw [hs, h2]
    obtain ⟨e1, e2, e3, e4, e5, e6⟩ := fields_eq_of_seconds h1
    unfold Tick.text strfText
    rw [hs, hv, h2, h3, e1, e2, e3, e4, e5, e6]

end

/-- A text for fractions. -/
def Demo.fracText (x : ℚ) : Text := intText x.num ++ '/' :: natText x.den

theorem intText_ne (n : ℤ) {c : Char} (hc : c.toNat < 45 ∨ c.toNat = 47 ∨ 57 < c.toNat ∨ c = ',') : ∀ a ∈ intText n, a ≠ c := by
  have hm : '-' ≠ c := by
    rintro rfl
    revert hc
    decide
  have hk : c.toNat < 48 ∨ 57 < c.toNat := by
    rcases hc with h | h | h | rfl
    · omega
    · omega
    · omega
    · decide
  intro a ha
  unfold intText at ha
  split at ha
  · rcases List.mem_cons.mp ha with rfl | ha
    · exact hm
    · exact natText_ne _ hk a ha
  · exact natText_ne _ hk a ha

theorem Demo.fracText_float : letI := Arith.exact; Spec.FloatText Demo.fracText := by
  letI := Arith.exact
  constructor
  · intro x y _ _ h
    obtain ⟨h1, h2⟩ := cut_at (c := '/') (intText_ne _ (by decide)) (intText_ne _ (by decide)) h
    have k1 : x.num = y.num := by rw [← readInt_intText x.num, h1, readInt_intText]
    exact Rat.ext k1 (natText_inj h2)
  · intro x _ c hc
    rcases List.mem_append.mp hc with hc | hc
    · exact ⟨intText_ne _ (by decide) c hc, intText_ne _ (by decide) c hc, intText_ne _ (by decide) c hc⟩
    · rcases List.mem_cons.mp hc with rfl | hc
      · decide
      · exact ⟨natText_ne _ (by decide) c hc, natText_ne _ (by decide) c hc, natText_ne _ (by decide) c hc⟩

/-- The hypotheses of `C105_text`, and two ticks of different instants and of different timezones with the same text: 12:00 in Paris and in UTC. -/
example : letI := Arith.exact
    Spec.FloatText Demo.fracText ∧
    ∃ t t' : Tick, Spec.FloatTick t ∧ Spec.FloatTick t' ∧ 0 ≤ yearOf t.dt.wall ∧ 0 ≤ yearOf t'.dt.wall ∧ t.dt.utc + 2 * hourUs = t'.dt.utc ∧
      t.text Demo.fracText = t'.text Demo.fracText := by
  letI := Arith.exact
  refine ⟨Demo.fracText_float, ⟨⟨midnight 2019 5 1 + 10 * hourUs, midnight 2019 5 1 + 12 * hourUs, 2⟩, 49, 50⟩,
    ⟨⟨midnight 2019 5 1 + 12 * hourUs, midnight 2019 5 1 + 12 * hourUs, 0⟩, 49, 50⟩, ⟨rfl, rfl⟩, ⟨rfl, rfl⟩, by decide +kernel, by decide +kernel,
    by decide +kernel, ?_⟩
  exact (C105_text _ Demo.fracText_float _ _ ⟨rfl, rfl⟩ ⟨rfl, rfl⟩ (by decide +kernel) (by decide +kernel)).mpr ⟨rfl, rfl, rfl⟩

/-! ## Texts sort as datetimes -/

theorem textLt_append : ∀ {x y : Text} (_ : x.length = y.length) (s t : Text),
    Spec.textLt (x ++ s) (y ++ t) ↔ Spec.textLt x y ∨ (x = y ∧ Spec.textLt s t) := by
  intro x
  induction x with
  | nil =>
    intro y h s t
    rw [List.eq_nil_of_length_eq_zero h.symm]
    simp [Spec.textLt]
  | cons a x ih =>
    intro y h s t
    rcases y with _ | ⟨b, y⟩
    · cases h
    · simp only [List.cons_append, Spec.textLt, List.cons.injEq]
      rw [ih (by simpa using h)]
      tauto

theorem textLt_cons (c : Char) (s t : Text) : Spec.textLt (c :: s) (c :: t) ↔ Spec.textLt s t := by
  simp [Spec.textLt]

theorem digits_textLt : ∀ (l l' : List ℕ) (a b : ℕ), (∀ d ∈ l, d < 10) → (∀ d ∈ l', d < 10) → l.length = l'.length →
    (l.foldl (fun a d => 10 * a + d) a < l'.foldl (fun a d => 10 * a + d) b ↔
      a < b ∨ (a = b ∧ Spec.textLt (l.map digitChar) (l'.map digitChar))) := by
  intro l
  induction l with
  | nil =>
    intro l' a b _ _ h
    rw [List.eq_nil_of_length_eq_zero h.symm]
    simp [Spec.textLt]
  | cons d l ih =>
    intro l' a b hl hl' h
    rcases l' with _ | ⟨e, l'⟩
    · cases h
    · have hd := hl d (List.mem_cons_self ..)
      have he := hl' e (List.mem_cons_self ..)
      simp only [List.foldl_cons, List.map_cons, Spec.textLt]
      rw [ih l' _ _ (fun x hx => hl x (List.mem_cons_of_mem _ hx)) (fun x hx => hl' x (List.mem_cons_of_mem _ hx)) (by simpa using h),
        digitChar_toNat d hd, digitChar_toNat e he]
      have hc : digitChar d = digitChar e ↔ d = e := by
        constructor
        · intro h
          have := congrArg Char.toNat h
          rw [digitChar_toNat d hd, digitChar_toNat e he] at this
          omega
        · rintro rfl; rfl
      rw [hc]
      constructor
      · rintro (h | ⟨h, k⟩)
        · rcases lt_trichotomy a b with g | g | g
          · exact .inl g
          · exact .inr ⟨g, .inl (by omega)⟩
          · omega
        · exact .inr ⟨by omega, .inr ⟨by omega, k⟩⟩
      · rintro (h | ⟨h, k | ⟨k, g⟩⟩)
        · exact .inl (by omega)
        · exact .inl (by omega)
        · exact .inr ⟨by omega, g⟩

theorem readNat_foldl : ∀ (l : List ℕ) (a : ℕ), (∀ d ∈ l, d < 10) →
    (l.map digitChar).foldl (fun a c => 10 * a + (c.toNat - 48)) a = l.foldl (fun a d => 10 * a + d) a := by
  intro l
  induction l with
  | nil => intro a _; rfl
  | cons d l ih =>
    intro a h
    rw [List.map_cons, List.foldl_cons, List.foldl_cons, digitChar_val d (h d (List.mem_cons_self ..)),
      ih _ (fun x hx => h x (List.mem_cons_of_mem _ hx))]

theorem padText_lt {k m n : ℕ} (hk : 1 ≤ k) (hm : m < 10 ^ k) (hn : n < 10 ^ k) : Spec.textLt (padText k m) (padText k n) ↔ m < n := by
  obtain ⟨l, h1, h2⟩ := padText_digits k m
  obtain ⟨l', h3, h4⟩ := padText_digits k n
  have e1 := readNat_padText k m
  have e2 := readNat_padText k n
  have l1 := padText_length m k hk hm
  have l2 := padText_length n k hk hn
  rw [h2] at e1 l1; rw [h4] at e2 l2
  rw [List.length_map] at l1 l2
  unfold Spec.readNat at e1 e2
  rw [readNat_foldl l 0 h1] at e1
  rw [readNat_foldl l' 0 h3] at e2
  have := digits_textLt l l' 0 0 h1 h3 (l1.trans l2.symm)
  rw [e1, e2, ← h2, ← h4] at this
  rw [this]
  simp

theorem field_lt {k m n : ℕ} (hk : 1 ≤ k) (hm : m < 10 ^ k) (hn : n < 10 ^ k) (c : Char) (s t : Text) :
    Spec.textLt (padText k m ++ c :: s) (padText k n ++ c :: t) ↔ m < n ∨ (m = n ∧ Spec.textLt s t) := by
  rw [textLt_append ((padText_length m k hk hm).trans (padText_length n k hk hn).symm), padText_lt hk hm hn, textLt_cons]
  have : padText k m = padText k n ↔ m = n := ⟨padText_inj, fun h => by rw [h]⟩
  rw [this]

theorem natText_four {n : ℕ} (h1 : 1000 ≤ n) (h2 : n ≤ 9999) : natText n = padText 4 n := by
  have : (natText n).length = 4 := by
    unfold natText
    rw [if_neg (by omega), List.length_map, List.length_reverse]
    have a := (Nat.digits_length_le_iff (b := 10) (by decide) n (k := 4)).mpr (by omega)
    have b := (Nat.lt_digits_length_iff (b := 10) (by decide) n (k := 3)).mpr (by omega)
    omega
  unfold padText
  rw [this]
  rfl

/-- C105: for years of four digits, the datetimes of dictionaries and texts sort as the seconds of the wall clocks do. -/
theorem C105_sorted (d d' : DT) (hd : 1000 ≤ yearOf d.wall ∧ yearOf d.wall ≤ 9999) (hd' : 1000 ≤ yearOf d'.wall ∧ yearOf d'.wall ≤ 9999) :
    Spec.textLt (strfText d) (strfText d') ↔ Spec.seconds d < Spec.seconds d' := by
  obtain ⟨r1, r2, r3, r4, r5⟩ := field_ranges d.wall
  obtain ⟨q1, q2, q3, q4, q5⟩ := field_ranges d'.wall
  have ho := ordOf_lt_iff d.wall d'.wall
  have ho' := ordOf_lt_iff d'.wall d.wall
  unfold strfText
  simp only [List.append_assoc, List.cons_append]
  rw [natText_four (by omega) (by omega), natText_four (by omega) (by omega), field_lt (by decide) (by omega) (by omega),
    field_lt (by decide) (by omega) (by omega), field_lt (by decide) (by omega) (by omega), field_lt (by decide) (by omega) (by omega),
    field_lt (by decide) (by omega) (by omega), padText_lt (by decide) (by omega) (by omega), seconds_fields, seconds_fields]
  rcases lt_trichotomy (ordOf d.wall) (ordOf d'.wall) with h | h | h
  · have := ho.mp h
    constructor
    · intro _; omega
    · intro _; omega
  · have e : yearOf d.wall = yearOf d'.wall ∧ monthOf d.wall = monthOf d'.wall ∧ dayOf d.wall = dayOf d'.wall := by
      unfold yearOf monthOf dayOf
      rw [h]
      exact ⟨rfl, rfl, rfl⟩
    rw [h]
    constructor
    · intro _; omega
    · intro _; omega
  · have := ho'.mp h
    constructor
    · intro _; omega
    · intro _; omega

/-- Two days around the end of a month. -/
example : Spec.textLt (strfText ⟨midnight 2020 2 29, midnight 2020 2 29, 0⟩) (strfText ⟨midnight 2020 3 1, midnight 2020 3 1, 0⟩) :=
  (C105_sorted _ _ (by decide +kernel) (by decide +kernel)).mpr (by decide +kernel)

/-- C105: before the year 1000 they do not: the last day of 999 is after the first of 1000. -/
theorem C105_sorted_false : ∃ d d' : DT, Spec.seconds d < Spec.seconds d' ∧ Spec.textLt (strfText d') (strfText d) := by
  refine ⟨⟨midnight 999 12 31, midnight 999 12 31, 0⟩, ⟨midnight 1000 1 1, midnight 1000 1 1, 0⟩, by decide +kernel, ?_⟩
  have e : strfText ⟨midnight 999 12 31, midnight 999 12 31, 0⟩ = '9' :: "99-12-31 00:00:00".toList := by decide +kernel
  have e' : strfText ⟨midnight 1000 1 1, midnight 1000 1 1, 0⟩ = '1' :: "000-01-01 00:00:00".toList := by decide +kernel
  rw [e, e']
  exact .inl (by decide)

/-! ## Universal time -/

/-- C105: `datetime_utc` shows the instant, whatever the timezone, and does not change when an epic converts the tick. -/
theorem C105_utc (t : Tick) (z : Zone) : t.datetimeUtc.utc = t.dt.utc ∧ t.datetimeUtc.wall = t.dt.utc ∧ t.datetimeUtc.tz = Zone.utc.id ∧
    ({ t with dt := t.dt.to z } : Tick).datetimeUtc = t.datetimeUtc := by
  refine ⟨rfl, ?_, rfl, rfl⟩
  unfold Tick.datetimeUtc DT.to Zone.utc
  dsimp only
  omega

/-- C105: in universal time, for years of four digits, texts sort as the seconds of the instants do, for ticks of any timezones. -/
theorem C105_utc_sorted (t t' : Tick) (h : 1000 ≤ yearOf t.dt.utc ∧ yearOf t.dt.utc ≤ 9999) (h' : 1000 ≤ yearOf t'.dt.utc ∧ yearOf t'.dt.utc ≤ 9999) :
    Spec.textLt (strfText t.datetimeUtc) (strfText t'.datetimeUtc) ↔ t.dt.utc / 1000000 < t'.dt.utc / 1000000 := by
  have e := (C105_utc t Zone.utc).2.1
  have e' := (C105_utc t' Zone.utc).2.1
  rw [C105_sorted _ _ (by rw [e]; exact h) (by rw [e']; exact h')]
  unfold Spec.seconds
  rw [e, e']

/-- C105: in the timezone of the tick they do not, when clocks go back: 27 October 2019 in Paris, half an hour before and after. -/
theorem C105_zone_sorted_false : ∃ d d' : DT, (d.utc < d'.utc) ∧ Spec.textLt (strfText (d'.to Zone.paris2019)) (strfText (d.to Zone.paris2019)) := by
  refine ⟨⟨midnight 2019 10 27 + 30 * minUs, 0, 0⟩, ⟨midnight 2019 10 27 + 70 * minUs, 0, 0⟩, by decide +kernel, ?_⟩
  exact (C105_sorted _ _ (by decide +kernel) (by decide +kernel)).mpr (by decide +kernel)

/-! ## Epics -/

/-- C105: the text of an epic tells its reference and its timezone (names of timezones differ and have no spaces). -/
theorem C105_epic (name : ℕ → Text) (h1 : ∀ i j, name i = name j → i = j) (h2 : ∀ i, ∀ c ∈ name i, c ≠ ' ') (ep ep' : Epic) :
    ep.text name = ep'.text name ↔ ep.ref = ep'.ref ∧ ep.zone.id = ep'.zone.id := by
  constructor
  · intro h
    have k := congrArg List.reverse h
    have e : ∀ x : Epic, (x.text name).reverse = (name x.zone.id).reverse ++ ' ' :: 'e' :: 'n' :: 'o' :: 'z' :: 'e' :: 'm' :: 'i' :: 't' :: ' ' ::
        'n' :: 'o' :: ' ' :: (x.ref.toList.reverse ++ "Epic: ".toList.reverse) := by
      intro x
      unfold Epic.text
      simp only [List.reverse_append, List.append_assoc]
      rfl
    rw [e, e] at k
    obtain ⟨k1, k2⟩ := cut_at (fun c hc => h2 _ c (List.mem_reverse.mp hc)) (fun c hc => h2 _ c (List.mem_reverse.mp hc)) k
    simp only [List.cons.injEq, true_and] at k2
    refine ⟨?_, h1 _ _ (List.reverse_injective k1)⟩
    exact String.toList_injective (List.reverse_injective (List.append_cancel_right k2))
  · rintro ⟨a, b⟩
    unfold Epic.text
    rw [a, b]

/-- Names of timezones. -/
example : (∀ i j : ℕ, 'Z' :: natText i = 'Z' :: natText j → i = j) ∧ ∀ i : ℕ, ∀ c ∈ 'Z' :: natText i, c ≠ ' ' :=
  ⟨fun _ _ h => natText_inj (List.cons.inj h).2, fun i c hc => by
    rcases List.mem_cons.mp hc with rfl | hc
    · decide
    · exact natText_ne i (by decide) c hc⟩

end Estrade
