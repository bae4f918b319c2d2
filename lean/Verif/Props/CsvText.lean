import Verif.CsvText
import Verif.Props.Reports
import Verif.Demo
import Verif.Lemmas.Calendar
import Mathlib.Data.Nat.Digits.Lemmas
import Mathlib.Tactic.IntervalCases

/-!
# C82: report files can be read back
(estrade/reporting/csv.py, estrade/trade.py:93-106)
-/

set_option linter.style.haveILetI false
set_option linter.unusedSectionVars false
set_option autoImplicit false

namespace Estrade

/-- Spec: where a reader of comma separated values is. -/
inductive Spec.CsvState
  | recordStart | fieldStart | plain | quoted | quoteSeen | crSeen
  deriving DecidableEq

/-- Spec: a strict reader of comma separated values (RFC 4180: fields separated by `,`, records by CR LF, fields may be
quoted by `"`, a quote in a quoted field is doubled; an empty line is a record without fields). `cur`: the
current field so far, `row`: the fields before it. `none`: malformed. -/
def Spec.csvRead : Spec.CsvState → Text → List Text → Text → Option (List (List Text))
  | .recordStart, _, _, [] => some []
  | _, _, _, [] => none
  | .recordStart, cur, _, c :: s =>
    if c = '\r' then Spec.csvRead .crSeen cur [] s
    else if c = ',' then Spec.csvRead .fieldStart [] [[]] s
    else if c = '"' then Spec.csvRead .quoted [] [] s
    else if c = '\n' then none
    else Spec.csvRead .plain [c] [] s
  | .fieldStart, _, row, c :: s =>
    if c = '\r' then Spec.csvRead .crSeen [] (row ++ [[]]) s
    else if c = ',' then Spec.csvRead .fieldStart [] (row ++ [[]]) s
    else if c = '"' then Spec.csvRead .quoted [] row s
    else if c = '\n' then none
    else Spec.csvRead .plain [c] row s
  | .plain, cur, row, c :: s =>
    if c = '\r' then Spec.csvRead .crSeen [] (row ++ [cur]) s
    else if c = ',' then Spec.csvRead .fieldStart [] (row ++ [cur]) s
    else if c = '"' then none
    else if c = '\n' then none
    else Spec.csvRead .plain (cur ++ [c]) row s
  | .quoted, cur, row, c :: s =>
    if c = '"' then Spec.csvRead .quoteSeen cur row s else Spec.csvRead .quoted (cur ++ [c]) row s
  | .quoteSeen, cur, row, c :: s =>
    if c = '\r' then Spec.csvRead .crSeen [] (row ++ [cur]) s
    else if c = ',' then Spec.csvRead .fieldStart [] (row ++ [cur]) s
    else if c = '"' then Spec.csvRead .quoted (cur ++ ['"']) row s
    else none
  | .crSeen, _, row, c :: s =>
    if c = '\n' then (Spec.csvRead .recordStart [] [] s).map (row :: ·) else none

/-- Spec: the records of a text. -/
def Spec.csvRecords (s : Text) : Option (List (List Text)) := Spec.csvRead .recordStart [] [] s

/-! ## One field -/

open Spec.CsvState

theorem read_quoted (s : Text) : ∀ (cur : Text) (row : List Text) (rest : Text),
    Spec.csvRead quoted cur row (doubleQuotes s ++ '"' :: rest) = Spec.csvRead quoteSeen (cur ++ s) row rest := by
  induction s with
  | nil => intro cur row rest; simp [doubleQuotes, Spec.csvRead]
  | cons c s ih =>
    intro cur row rest
    unfold doubleQuotes
    split_ifs with h
    · subst h
      simp only [List.cons_append]
      rw [Spec.csvRead, if_pos rfl, Spec.csvRead, if_neg (by decide), if_neg (by decide), if_pos rfl, ih]
      simp
    · simp only [List.cons_append]
      rw [Spec.csvRead, if_neg h, ih]
      simp

/-- No character that makes quotes necessary. -/
def PlainText (s : Text) : Prop := ∀ c ∈ s, c ≠ ',' ∧ c ≠ '"' ∧ c ≠ '\r' ∧ c ≠ '\n'

theorem plain_iff (s : Text) : needsQuote s = false ↔ PlainText s := by
  unfold needsQuote PlainText
  simp [and_assoc]

theorem read_plain (s : Text) (h : PlainText s) : ∀ (cur : Text) (row : List Text) (rest : Text),
    Spec.csvRead plain cur row (s ++ rest) = Spec.csvRead plain (cur ++ s) row rest := by
  induction s with
  | nil => intro cur row rest; simp
  | cons c s ih =>
    intro cur row rest
    obtain ⟨h1, h2, h3, h4⟩ := h c (by simp)
    have hs : PlainText s := fun d hd => h d (by simp [hd])
    simp only [List.cons_append]
    rw [Spec.csvRead, if_neg h3, if_neg h1, if_neg h2, if_neg h4, ih hs]
    simp

/-- Reading a field up to the delimiter. -/
theorem read_field_comma (s : Text) (row : List Text) (rest : Text) :
    Spec.csvRead fieldStart [] row (fieldText s ++ ',' :: rest) = Spec.csvRead fieldStart [] (row ++ [s]) rest := by
  unfold fieldText
  split_ifs with h
  · simp only [List.cons_append, List.append_assoc, List.nil_append]
    rw [Spec.csvRead, if_neg (by decide), if_neg (by decide), if_pos rfl, read_quoted, Spec.csvRead, if_neg (by decide),
      if_pos rfl]
    simp
  · have hp := (plain_iff s).1 (by simpa using h)
    rcases s with _ | ⟨c, s⟩
    · simp [Spec.csvRead]
    · obtain ⟨h1, h2, h3, h4⟩ := hp c (by simp)
      simp only [List.cons_append]
      rw [Spec.csvRead, if_neg h3, if_neg h1, if_neg h2, if_neg h4, read_plain s (fun d hd => hp d (by simp [hd])),
        Spec.csvRead, if_neg (by decide), if_pos rfl]
      simp

/-- Reading a field up to the end of the line. -/
theorem read_field_end (s : Text) (row : List Text) (rest : Text) :
    Spec.csvRead fieldStart [] row (fieldText s ++ '\r' :: '\n' :: rest) =
      (Spec.csvRecords rest).map ((row ++ [s]) :: ·) := by
  unfold fieldText Spec.csvRecords
  split_ifs with h
  · simp only [List.cons_append, List.append_assoc, List.nil_append]
    rw [Spec.csvRead, if_neg (by decide), if_neg (by decide), if_pos rfl, read_quoted, Spec.csvRead, if_pos rfl,
      Spec.csvRead, if_pos rfl]
    simp
  · have hp := (plain_iff s).1 (by simpa using h)
    rcases s with _ | ⟨c, s⟩
    · simp [Spec.csvRead]
    · obtain ⟨h1, h2, h3, h4⟩ := hp c (by simp)
      simp only [List.cons_append]
      rw [Spec.csvRead, if_neg h3, if_neg h1, if_neg h2, if_neg h4, read_plain s (fun d hd => hp d (by simp [hd])),
        Spec.csvRead, if_pos rfl, Spec.csvRead, if_pos rfl]
      simp

theorem read_fields (l : List Text) : ∀ (row : List Text) (rest : Text), l ≠ [] →
    Spec.csvRead fieldStart [] row (joinFields l ++ '\r' :: '\n' :: rest) =
      (Spec.csvRecords rest).map ((row ++ l) :: ·) := by
  induction l with
  | nil => intro row rest h; exact absurd rfl h
  | cons s l ih =>
    intro row rest _
    rcases l with _ | ⟨t, l⟩
    · exact read_field_end s row rest
    · unfold joinFields
      rw [List.append_assoc, List.cons_append, read_field_comma, ih _ _ (by simp)]
      simp

/-- A record that does not begin with CR is read as its first field. -/
theorem read_start (c : Char) (s : Text) (h : c ≠ '\r') :
    Spec.csvRead recordStart [] [] (c :: s) = Spec.csvRead fieldStart [] [] (c :: s) := by
  rw [Spec.csvRead, Spec.csvRead, if_neg h, if_neg h]
  rfl

theorem joinFields_head {l : List Text} {c : Char} {s : Text} (h : joinFields l = c :: s) : c ≠ '\r' := by
  have hf : ∀ (t : Text) (r : Text), fieldText t ++ r = c :: s → t ≠ [] → c ≠ '\r' := by
    intro t r ht hne
    unfold fieldText at ht
    split_ifs at ht with hq
    · simp only [List.cons_append, List.cons.injEq] at ht
      rw [← ht.1]; decide
    · have hp := (plain_iff t).1 (by simpa using hq)
      rcases t with _ | ⟨d, t⟩
      · exact absurd rfl hne
      · simp only [List.cons_append, List.cons.injEq] at ht
        rw [← ht.1]
        exact (hp d (by simp)).2.2.1
  rcases l with _ | ⟨t, _ | ⟨u, l⟩⟩
  · cases h
  · unfold joinFields at h
    refine hf t [] (by simpa using h) ?_
    rintro rfl
    cases h
  · unfold joinFields at h
    by_cases ht : t = []
    · subst ht
      simp only [fieldText, needsQuote, List.any_nil, Bool.false_eq_true, if_false, List.nil_append, List.cons.injEq] at h
      rw [← h.1]; decide
    · exact hf t _ h ht

theorem read_row (l : List Text) (rest : Text) :
    Spec.csvRecords (rowText l ++ rest) = (Spec.csvRecords rest).map (l :: ·) := by
  unfold rowText
  split_ifs with h
  · obtain ⟨h1, h2⟩ := h
    have hl : l = [[]] := by
      rcases l with _ | ⟨t, _ | ⟨u, l⟩⟩
      · exact absurd rfl h1
      · unfold joinFields fieldText at h2
        split_ifs at h2
        rw [h2]
      · unfold joinFields at h2
        simp at h2
    subst hl
    unfold Spec.csvRecords
    simp [Spec.csvRead]
  · rcases l with _ | ⟨t, l⟩
    · unfold Spec.csvRecords
      simp [joinFields, Spec.csvRead]
    · have hne : joinFields (t :: l) ≠ [] := fun hx => h ⟨by simp, hx⟩
      have hread := read_fields (t :: l) [] rest (by simp)
      rcases hj : joinFields (t :: l) with _ | ⟨c, s⟩
      · exact absurd hj hne
      · rw [hj] at hread
        have hs : (c :: s ++ ['\r', '\n'] ++ rest) = c :: (s ++ '\r' :: '\n' :: rest) := by simp
        have hg : Spec.csvRecords (c :: s ++ ['\r', '\n'] ++ rest) =
            Spec.csvRead fieldStart [] [] (c :: (s ++ '\r' :: '\n' :: rest)) := by
          rw [hs]
          exact read_start _ _ (joinFields_head hj)
        rw [hg]
        simpa using hread

theorem read_rows (rows : List (List Text)) : Spec.csvRecords ((rows.map rowText).flatten) = some rows := by
  induction rows with
  | nil => rfl
  | cons r rows ih =>
    rw [List.map_cons, List.flatten_cons, read_row, ih]
    rfl

/-! ## C82 -/

/-- C82: reading any written file gives its header and its rows, every cell as it was printed, whatever characters it
contains. -/
theorem C82_read_back (num : ℚ → Text) (f : CsvFile) :
    Spec.csvRecords (fileText num f) =
      some (f.header.map String.toList :: f.rows.map (fun r => f.header.map (fun k =>
        match r.get? k with
        | some c => c.text num
        | none => []))) := by
  have h := read_rows (f.header.map String.toList :: f.rows.map (rowFields num f.header))
  unfold fileText
  rw [List.map_cons, List.flatten_cons, List.map_map] at h
  exact h

/-! ## Numbers and dates -/

/-- Spec: the value of decimal digits. -/
def Spec.readNat (s : Text) : ℕ := s.foldl (fun a c => 10 * a + (c.toNat - 48)) 0

/-- Spec: the value of a decimal number with an optional minus sign. -/
def Spec.readInt (s : Text) : ℤ := match s with
  | [] => 0
  | c :: t => if c = '-' then -(Spec.readNat t : ℤ) else Spec.readNat (c :: t)

/-- Spec: the number at characters `i`, ..., `i + n - 1`. -/
def Spec.fieldAt (s : Text) (i n : ℕ) : ℤ := Spec.readNat ((s.drop i).take n)

/-- Spec: the wall clock of a date printed as `YYYY-MM-DD HH:mm:ss`. -/
def Spec.readDate (s : Text) : ℤ :=
  midnight (Spec.fieldAt s 0 4) (Spec.fieldAt s 5 2) (Spec.fieldAt s 8 2) + Spec.fieldAt s 11 2 * hourUs +
    Spec.fieldAt s 14 2 * minUs + Spec.fieldAt s 17 2 * secUs

theorem digitChar_val (d : ℕ) (h : d < 10) : (digitChar d).toNat - 48 = d := by
  interval_cases d <;> decide

theorem digitChar_ne (d : ℕ) (h : d < 10) : digitChar d ≠ '-' := by
  interval_cases d <;> decide

theorem readNat_digits (l : List ℕ) (h : ∀ d ∈ l, d < 10) :
    Spec.readNat (l.reverse.map digitChar) = Nat.ofDigits 10 l := by
  unfold Spec.readNat
  induction l with
  | nil => rfl
  | cons d l ih =>
    rw [List.reverse_cons, List.map_append, List.foldl_append, ih (fun e he => h e (by simp [he])), Nat.ofDigits_cons]
    simp only [List.map_cons, List.map_nil, List.foldl_cons, List.foldl_nil]
    rw [digitChar_val d (h d (by simp))]
    simp [Nat.add_comm]

theorem readNat_natText (n : ℕ) : Spec.readNat (natText n) = n := by
  unfold natText
  split_ifs with h
  · rw [h]; rfl
  · rw [readNat_digits _ (fun d hd => Nat.digits_lt_base (by decide) hd), Nat.ofDigits_digits]

theorem natText_head (n : ℕ) : ∃ c t, natText n = c :: t ∧ c ≠ '-' := by
  unfold natText
  split_ifs with h
  · exact ⟨'0', [], rfl, by decide⟩
  · rcases hd : (Nat.digits 10 n).reverse with _ | ⟨d, l⟩
    · rw [List.reverse_eq_nil_iff, Nat.digits_eq_nil_iff_eq_zero] at hd
      exact absurd hd h
    · refine ⟨digitChar d, l.map digitChar, rfl, digitChar_ne d ?_⟩
      refine Nat.digits_lt_base (b := 10) (m := n) (by decide) ?_
      rw [← List.mem_reverse, hd]
      simp

theorem readInt_intText (n : ℤ) : Spec.readInt (intText n) = n := by
  unfold intText
  split_ifs with h
  · unfold Spec.readInt
    simp only [if_true]
    rw [readNat_natText]
    omega
  · obtain ⟨c, t, hc, hne⟩ := natText_head n.natAbs
    have hr := readNat_natText n.natAbs
    rw [hc] at hr ⊢
    unfold Spec.readInt
    simp only [if_neg hne]
    rw [hr]
    omega

theorem natText_length (n k : ℕ) (hk : 1 ≤ k) (h : n < 10 ^ k) : (natText n).length ≤ k := by
  unfold natText
  split_ifs
  · simpa using hk
  · rw [List.length_map, List.length_reverse]
    exact (Nat.digits_length_le_iff (by decide) n).2 h

theorem padText_length (n k : ℕ) (hk : 1 ≤ k) (h : n < 10 ^ k) : (padText k n).length = k := by
  unfold padText
  have := natText_length n k hk h
  rw [List.length_append, List.length_replicate]
  omega

theorem readNat_padText (k n : ℕ) : Spec.readNat (padText k n) = n := by
  have h0 : ∀ (j : ℕ) (s : Text), Spec.readNat (List.replicate j '0' ++ s) = Spec.readNat s := by
    intro j s
    induction j with
    | zero => rfl
    | succ j ih =>
      rw [← ih]
      rfl
  unfold padText
  rw [h0, readNat_natText]

/-- The text of six fields of 4, 2, 2, 2, 2 and 2 characters. -/
theorem readDate_fields (a b c d e f : Text) (ha : a.length = 4) (hb : b.length = 2) (hc : c.length = 2) (hd : d.length = 2)
    (he : e.length = 2) (hf : f.length = 2) :
    Spec.readDate (a ++ '-' :: b ++ '-' :: c ++ ' ' :: d ++ ':' :: e ++ ':' :: f) =
      midnight (Spec.readNat a) (Spec.readNat b) (Spec.readNat c) + Spec.readNat d * hourUs + Spec.readNat e * minUs +
        Spec.readNat f * secUs := by
  obtain ⟨a1, a2, a3, a4, rfl⟩ : ∃ w x y z, a = [w, x, y, z] := by
    rcases a with _ | ⟨w, _ | ⟨x, _ | ⟨y, _ | ⟨z, _ | _⟩⟩⟩⟩ <;> simp at ha ⊢
  have two : ∀ l : Text, l.length = 2 → ∃ x y, l = [x, y] := by
    intro l hl
    rcases l with _ | ⟨x, _ | ⟨y, _ | _⟩⟩ <;> simp at hl ⊢
  obtain ⟨b1, b2, rfl⟩ := two b hb
  obtain ⟨c1, c2, rfl⟩ := two c hc
  obtain ⟨d1, d2, rfl⟩ := two d hd
  obtain ⟨e1, e2, rfl⟩ := two e he
  obtain ⟨f1, f2, rfl⟩ := two f hf
  rfl

theorem wall_fields (w : ℤ) : midnight (yearOf w) (monthOf w) (dayOf w) + hourOf w * hourUs + minuteOf w * minUs +
    secondOf w * secUs = w - w % secUs := by
  have h := (ord2ymd_spec (ordOf w)).2
  have hm : midnight (yearOf w) (monthOf w) (dayOf w) = ordOf w * dayUs := by
    unfold midnight yearOf monthOf dayOf
    rw [h]
  rw [hm]
  unfold hourOf minuteOf secondOf timeOf ordOf dayUs hourUs minUs secUs
  omega

theorem readDate_dateText (d : DT) (hy : 0 ≤ yearOf d.wall ∧ yearOf d.wall ≤ 9999) :
    Spec.readDate (dateText d) = d.wall - d.wall % secUs := by
  obtain ⟨hv, _⟩ := ord2ymd_spec (ordOf d.wall)
  have hmo : 1 ≤ monthOf d.wall ∧ monthOf d.wall ≤ 12 := ⟨hv.1, hv.2.1⟩
  have hda : 1 ≤ dayOf d.wall ∧ dayOf d.wall ≤ 31 := ⟨hv.2.2.1, hv.2.2.2.trans (daysInMonth_pos _ _).2⟩
  have hho : 0 ≤ hourOf d.wall ∧ hourOf d.wall < 24 := by
    unfold hourOf timeOf dayUs hourUs minUs secUs; omega
  have hmi : 0 ≤ minuteOf d.wall ∧ minuteOf d.wall < 60 := by
    unfold minuteOf timeOf dayUs hourUs minUs secUs; omega
  have hse : 0 ≤ secondOf d.wall ∧ secondOf d.wall < 60 := by
    unfold secondOf timeOf dayUs hourUs minUs secUs; omega
  unfold dateText
  rw [readDate_fields _ _ _ _ _ _ (padText_length _ 4 (by decide) (by omega)) (padText_length _ 2 (by decide) (by omega))
    (padText_length _ 2 (by decide) (by omega)) (padText_length _ 2 (by decide) (by omega))
    (padText_length _ 2 (by decide) (by omega)) (padText_length _ 2 (by decide) (by omega))]
  simp only [readNat_padText]
  rw [Int.toNat_of_nonneg hy.1, Int.toNat_of_nonneg (by omega), Int.toNat_of_nonneg (by omega), Int.toNat_of_nonneg hho.1,
    Int.toNat_of_nonneg hmi.1, Int.toNat_of_nonneg hse.1]
  exact wall_fields d.wall

/-- C82: quantities and counts can be read back from their text. -/
theorem C82_int (n : ℤ) : Spec.readInt (intText n) = n := readInt_intText n

/-- C82 (partial: the wall clock, not the instant; `C82_instant_false`): the opening date can be read back to the second
of the local wall clock (years 0 to 9999). -/
theorem C82_date_partial (d : DT) (hy : 0 ≤ yearOf d.wall ∧ yearOf d.wall ≤ 9999) :
    Spec.readDate (dateText d) = d.wall - d.wall % secUs := readDate_dateText d hy

/-- C82 (partial, as above): in a zone with a fixed offset the instant can be read back to the second. -/
theorem C82_instant_partial (z : Zone) (k : ℤ) (hz : z.Fixed (k * secUs)) (d : DT)
    (hy : 0 ≤ yearOf (d.to z).wall ∧ yearOf (d.to z).wall ≤ 9999) :
    Spec.readDate (dateText (d.to z)) - k * secUs = d.utc - d.utc % secUs := by
  rw [readDate_dateText _ hy]
  have h1 := hz.1 d.utc
  unfold DT.to secUs at *
  simp only
  rw [h1]
  omega

/-- C82 as stated is false: nothing tells the two 02:30 of the night of 27 October 2019 in Paris apart. -/
theorem C82_instant_false : ∃ d d' : DT, d.utc + hourUs = d'.utc ∧
    dateText (d.to Zone.paris2019) = dateText (d'.to Zone.paris2019) := by
  refine ⟨⟨midnight 2019 10 27 + 30 * minUs, midnight 2019 10 27 + 30 * minUs, 0⟩,
    ⟨midnight 2019 10 27 + 90 * minUs, midnight 2019 10 27 + 90 * minUs, 0⟩, ?_, ?_⟩
  · decide +kernel
  · decide +kernel

/-! ## Lines -/

/-- Spec: the status of that name. -/
def Spec.readStatus (s : Text) : Option Status :=
  [Status.created, .required, .pending, .confirmed, .closed, .refused].find? (fun x =>
    s = "TransactionStatus.".toList ++ match x with
      | .created => "CREATED".toList
      | .required => "REQUIRED".toList
      | .pending => "PENDING".toList
      | .confirmed => "CONFIRMED".toList
      | .closed => "CLOSED".toList
      | .refused => "REFUSED".toList)

/-- Spec: the direction of that name. -/
def Spec.readDir (s : Text) : Option Dir :=
  [Dir.buy, .sell].find? (fun x => s = "TradeDirection.".toList ++ match x with
    | .buy => "BUY".toList
    | .sell => "SELL".toList)

/-- Spec: what a line tells about a trade. -/
structure Spec.TradeData where
  ref : String
  status : Option Status
  epic : String
  strategy : String
  opened : ℤ
  dir : Option Dir
  openQty : ℤ
  openValue : Text
  closedQty : ℤ
  result : Text
  deriving DecidableEq

/-- Spec: reading a line of a trades file. -/
def Spec.readTrade : List Text → Option Spec.TradeData
  | [ref, st, ep, sg, od, di, oq, ov, cq, re] =>
    some ⟨String.ofList ref, Spec.readStatus st, String.ofList ep, String.ofList sg, Spec.readDate od, Spec.readDir di,
      Spec.readInt oq, ov, Spec.readInt cq, re⟩
  | _ => none

theorem readStatus_text (s : Status) : Spec.readStatus (statusText s) = some s := by
  cases s <;> decide +kernel

theorem readDir_text (d : Dir) : Spec.readDir (dirText d) = some d := by
  cases d <;> decide +kernel

section
variable [Arith]

/-- C82 (partial: opening dates are local wall clocks, `C82_instant_false`; texts of floats are those of any function
`num`): the trades file of a strategy, read line by line, tells every trade, latest first: references, status,
opening date to the second, direction, quantities, and the texts of opening value and result. -/
theorem C82_trades_partial (num : ℚ → Text) (s : StratView)
    (hy : ∀ p ∈ s.trades, 0 ≤ yearOf p.2.2.dt.wall ∧ yearOf p.2.2.dt.wall ≤ 9999) :
    (Spec.csvRecords (fileText num (Spec.tradesCsv s))).map (fun rs => rs.tail.map Spec.readTrade) =
      some (s.trades.reverse.map (fun p => some ⟨p.1, some p.2.2.status, p.2.1, s.ref,
        p.2.2.dt.wall - p.2.2.dt.wall % secUs, some p.2.2.dir, p.2.2.openQty, num p.2.2.openValue,
        (p.2.2.closes.map TradeClose.qty).sum, num p.2.2.result⟩)) := by
  rw [C82_read_back, Option.map_some, List.tail_cons]
  congr 1
  rw [List.map_map]
  by_cases ht : s.trades = []
  · unfold Spec.tradesCsv
    simp [ht]
  · unfold Spec.tradesCsv
    simp only [if_neg ht, List.map_map]
    apply List.map_congr_left
    intro p hp
    have hp' := hy p (by simpa using hp)
    have h1 := readStatus_text p.2.2.status
    have h2 := readDir_text p.2.2.dir
    have h3 := readDate_dateText p.2.2.dt hp'
    have h4 := readInt_intText p.2.2.openQty
    have h5 := readInt_intText ((p.2.2.closes.map TradeClose.qty).sum)
    have hr : Spec.readTrade [p.1.toList, statusText p.2.2.status, p.2.1.toList, s.ref.toList, dateText p.2.2.dt,
        dirText p.2.2.dir, intText p.2.2.openQty, num p.2.2.openValue,
        intText ((p.2.2.closes.map TradeClose.qty).sum), num p.2.2.result] = some ⟨p.1, some p.2.2.status, p.2.1, s.ref,
        p.2.2.dt.wall - p.2.2.dt.wall % secUs, some p.2.2.dir, p.2.2.openQty, num p.2.2.openValue,
        (p.2.2.closes.map TradeClose.qty).sum, num p.2.2.result⟩ := by
      unfold Spec.readTrade
      simp only [h1, h2, h3, h4, h5, String.ofList_toList]
    exact hr

/-- C82 (partial, as above): after a report that is complete in the sense of C52, every trades file in the folder tells
the trades of its strategy. -/
theorem C82_report_partial (num : ℚ → Text) (stamp : String) (ss : List StratView) (d : Folder)
    (hr : Spec.Reported stamp ss true d)
    (hy : ∀ s ∈ ss, ∀ p ∈ s.trades, 0 ≤ yearOf p.2.2.dt.wall ∧ yearOf p.2.2.dt.wall ≤ 9999) :
    ∀ s ∈ ss, ∃ f, d.get? (tradesFile stamp s.ref) = some f ∧
      (Spec.csvRecords (fileText num f)).map (fun rs => rs.tail.map Spec.readTrade) =
        some (s.trades.reverse.map (fun p => some ⟨p.1, some p.2.2.status, p.2.1, s.ref,
          p.2.2.dt.wall - p.2.2.dt.wall % secUs, some p.2.2.dir, p.2.2.openQty, num p.2.2.openValue,
          (p.2.2.closes.map TradeClose.qty).sum, num p.2.2.result⟩)) :=
  fun s hs => ⟨Spec.tradesCsv s, hr.2 rfl s hs, C82_trades_partial num s (hy s hs)⟩

/-- Spec: reading a line of the strategies file: reference, number of trades, texts of result and profit factor. -/
def Spec.readStrategy : List Text → Option (String × ℤ × Text × Text)
  | [ref, n, re, pf] => some (String.ofList ref, Spec.readInt n, re, pf)
  | _ => none

/-- C82: after a report that is complete in the sense of C52, the strategies file tells reference, number of trades,
result and profit factor of every strategy, in order. -/
theorem C82_strategies (num : ℚ → Text) (stamp : String) (ss : List StratView) (details : Bool) (d : Folder)
    (hr : Spec.Reported stamp ss details d) :
    ∃ f pfs, d.get? (strategiesFile stamp) = some f ∧
      List.Forall₂ (fun s pf => profitFactor (s.trades.map (fun p => p.2.2)) .none = .ok pf) ss pfs ∧
      (Spec.csvRecords (fileText num f)).map (fun rs => rs.tail.map Spec.readStrategy) =
        some ((ss.zip pfs).map (fun x => some (x.1.ref, (x.1.trades.length : ℤ),
          num (strategyResult (x.1.trades.map (fun p => p.2.2)) .none), num x.2))) := by
  obtain ⟨rows, h1, h2⟩ := hr.1
  have hrows : ∃ pfs : List ℚ, List.Forall₂ (fun s pf => profitFactor (s.trades.map (fun p => p.2.2)) .none = .ok pf) ss pfs ∧
      rows = (ss.zip pfs).map (fun x => Spec.strategyLine x.1 x.2) := by
    unfold Spec.strategyLines at h1
    clear h2 hr
    induction h1 with
    | nil => exact ⟨[], .nil, rfl⟩
    | cons h _ ih =>
      obtain ⟨pf, hp, rfl⟩ := h
      obtain ⟨pfs, hf, rfl⟩ := ih
      exact ⟨pf :: pfs, .cons hp hf, rfl⟩
  obtain ⟨pfs, hf, rfl⟩ := hrows
  refine ⟨_, pfs, h2, hf, ?_⟩
  rw [C82_read_back, Option.map_some, List.tail_cons]
  congr 1
  simp only [List.map_map]
  apply List.map_congr_left
  intro x _
  have h4 := readInt_intText (x.1.trades.length : ℤ)
  have hx : Spec.readStrategy [x.1.ref.toList, intText (x.1.trades.length : ℤ),
      num (strategyResult (x.1.trades.map (fun p => p.2.2)) .none), num x.2] =
      some (x.1.ref, (x.1.trades.length : ℤ), num (strategyResult (x.1.trades.map (fun p => p.2.2)) .none), num x.2) := by
    unfold Spec.readStrategy
    simp only [h4, String.ofList_toList]
  exact hx

end

/-- A strategy whose reference and whose trade's reference need quotes; the file as written, and as read. -/
def Demo.oddView : StratView :=
  letI := Arith.exact
  ⟨"a,b", [("say \"hi\"", "E\r\nF", Trade.new .sell 12 11 ⟨Demo.monday + 61 * minUs, Demo.monday + 61 * minUs, 0⟩ 0
    (some 10) (some 0) .confirmed)]⟩

example : letI := Arith.exact
    fileText (fun x => intText x.num) (Spec.tradesCsv Demo.oddView) =
      ("ref,status,epic,strategy,open_date,direction,open_quantity,open_value,closed_quantities,result\r\n" ++
      "\"say \"\"hi\"\"\",TransactionStatus.CONFIRMED,\"E\r\nF\",\"a,b\",2020-01-06 01:01:00,TradeDirection.SELL,12,11,0,12\r\n").toList ∧
    ((Spec.csvRecords (fileText (fun x => intText x.num) (Spec.tradesCsv Demo.oddView))).map
      (fun rs => rs.tail.map Spec.readTrade)) =
      some [some ⟨"say \"hi\"", some .confirmed, "E\r\nF", "a,b", Demo.monday + 61 * minUs, some .sell, 12, "11".toList,
        0, "12".toList⟩] := by
  decide +kernel

/-- Without trades the header is empty: the file is one empty line. -/
example : letI := Arith.exact
    fileText (fun x => intText x.num) (Spec.tradesCsv ⟨"s", []⟩) = ['\r', '\n'] ∧
    Spec.csvRecords ['\r', '\n'] = some [[]] := by
  decide +kernel

/-- One empty cell is written as two quotes, so that the line is not taken for an empty one. -/
example : rowText [[]] = "\"\"\r\n".toList ∧ Spec.csvRecords "\"\"\r\n".toList = some [[[]]] ∧
    rowText [[], []] = ",\r\n".toList ∧ intText (-120) = "-120".toList ∧ padText 4 33 = "0033".toList := by
  decide +kernel

end Estrade
