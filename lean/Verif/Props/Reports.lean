import Verif.Report
import Verif.Demo
import Verif.Lemmas.Dicts
import Mathlib.Data.Fintype.Pigeonhole
import Mathlib.Data.Fintype.BigOperators

/-!
# C52-C54: CSV reports, tick provider, references
-/

set_option linter.style.haveILetI false
set_option linter.unusedSectionVars false
set_option autoImplicit false

namespace Estrade

section
variable [Arith]

/-! ## C52 -/

/-- Spec: the line of a strategy. -/
def Spec.strategyLine (s : StratView) (pf : ℚ) : Dict Cell :=
  [("ref", .str s.ref), ("nb_trades", .int s.trades.length),
   ("result", .num (strategyResult (s.trades.map (fun p => p.2.2)) .none)), ("profit_factor", .num pf)]

/-- Spec: the line of a trade. -/
def Spec.tradeLine (sref : String) (p : String × String × Trade) : Dict Cell :=
  [("ref", .str p.1), ("status", .status p.2.2.status), ("epic", .str p.2.1), ("strategy", .str sref),
   ("open_date", .date p.2.2.dt), ("direction", .dir p.2.2.dir), ("open_quantity", .int p.2.2.openQty),
   ("open_value", .num p.2.2.openValue), ("closed_quantities", .int ((p.2.2.closes.map TradeClose.qty).sum)),
   ("result", .num p.2.2.result)]

/-- Spec: the trades file of a strategy: one line per trade, latest first; the header is empty without trades. -/
def Spec.tradesCsv (s : StratView) : CsvFile :=
  ⟨if s.trades = [] then [] else ["ref", "status", "epic", "strategy", "open_date", "direction", "open_quantity",
    "open_value", "closed_quantities", "result"], s.trades.reverse.map (Spec.tradeLine s.ref)⟩

/-- Spec: the lines of the strategies file are those of the strategies, in order, with their profit factors. -/
def Spec.strategyLines (ss : List StratView) (rows : List (Dict Cell)) : Prop :=
  List.Forall₂ (fun s row => ∃ pf, profitFactor (s.trades.map (fun p => p.2.2)) .none = .ok pf ∧
    row = Spec.strategyLine s pf) ss rows

theorem getTrades_all (l : List Trade) : (getTrades l none false none).length = l.length := by
  unfold getTrades
  have : ∀ m : List Trade, (getTrades.go none false none m).length = m.length := by
    intro m
    induction m with
    | nil => rfl
    | cons t m ih => simp [getTrades.go, ih]
  rw [this, List.length_reverse]

theorem profitFactor_ok (own : List Trade) (a : TradesArg) : ∃ pf, profitFactor own a = .ok pf := by
  unfold profitFactor
  dsimp only
  split_ifs with h1 h2
  · exact ⟨_, rfl⟩
  · exact ⟨_, rfl⟩
  · unfold pyDiv
    rw [if_neg h1]
    exact ⟨_, rfl⟩

theorem strategyRow_ok (s : StratView) : ∃ pf, profitFactor (s.trades.map (fun p => p.2.2)) .none = .ok pf ∧
    strategyRow s = .ok (Spec.strategyLine s pf) := by
  obtain ⟨pf, h⟩ := profitFactor_ok (s.trades.map (fun p => p.2.2)) .none
  refine ⟨pf, h, ?_⟩
  unfold strategyRow
  simp only [bind, Except.bind]
  rw [h]
  simp only
  rw [getTrades_all]
  simp [Spec.strategyLine]

theorem dictToCsv_keeps {d d' : Folder} {f : String} {rows : List (Dict Cell)} {hs : List String}
    (h : dictToCsv d f rows hs = .ok d') {g : String} {c : CsvFile} (hg : d.get? g = some c) : d'.get? g = some c := by
  unfold dictToCsv at h
  split at h
  · injection h with h; rw [← h]; exact hg
  · rename_i hn
    split_ifs at h
    injection h with h
    rw [← h, Dict.get?_set]
    split_ifs with hfg
    · rw [hfg, hg] at hn; cases hn
    · exact hg

theorem tradeRows_eq (s : StratView) : tradeRows s = (Spec.tradesCsv s).rows ∧
    headersOf (tradeRows s) = (Spec.tradesCsv s).header := by
  refine ⟨rfl, ?_⟩
  unfold tradeRows Spec.tradesCsv
  dsimp only
  rcases hl : s.trades.reverse with _ | ⟨p, l⟩
  · rw [List.reverse_eq_nil_iff] at hl
    simp [hl, headersOf]
  · have : s.trades ≠ [] := by intro h; rw [h] at hl; cases hl
    simp only [List.map_cons, headersOf, this, if_false]
    rfl

theorem keys_ok (s : StratView) : (tradeRows s).all (fun r => r.keys.all (fun k => decide (k ∈ headersOf (tradeRows s)))) =
    true := by
  rw [List.all_eq_true]
  intro r hr
  rw [List.all_eq_true]
  intro k hk
  have hne : s.trades ≠ [] := by
    intro h; unfold tradeRows at hr; rw [h] at hr; cases hr
  rw [(tradeRows_eq s).2]
  unfold Spec.tradesCsv
  simp only [hne, if_false]
  unfold tradeRows at hr
  obtain ⟨p, -, rfl⟩ := List.mem_map.mp hr
  simpa [tradeDict, Dict.keys] using hk

theorem dictToCsv_ok (d : Folder) (f : String) (s : StratView) :
    dictToCsv d f (tradeRows s) (headersOf (tradeRows s)) =
      .ok (if d.get? f = none then d ++ [(f, Spec.tradesCsv s)] else d) := by
  unfold dictToCsv
  rcases h : d.get? f with _ | c
  · simp only [keys_ok, if_true]
    rw [Dict.set_new _ _ _ h, (tradeRows_eq s).2, (tradeRows_eq s).1]
  · simp

theorem tradesFile_inj {stamp r r' : String} (h : tradesFile stamp r = tradesFile stamp r') : r = r' := by
  have h' := congrArg String.toList h
  simp only [tradesFile, String.toList_append, List.append_assoc] at h'
  have h1 := List.append_cancel_left (List.append_cancel_left h')
  exact String.toList_inj.mp (List.append_cancel_right h1)

theorem get?_append_none {a b : Folder} {k : String} (ha : a.get? k = none) : Dict.get? (a ++ b) k = Dict.get? b k := by
  unfold Dict.get? at ha ⊢
  rw [Option.map_eq_none_iff] at ha
  rw [List.find?_append, ha]; rfl

theorem get?_files (stamp : String) (ss : List StratView) (hnd : (ss.map StratView.ref).Nodup) {s : StratView}
    (hs : s ∈ ss) : Dict.get? (ss.map (fun s => (tradesFile stamp s.ref, Spec.tradesCsv s))) (tradesFile stamp s.ref) =
      some (Spec.tradesCsv s) := by
  induction ss with
  | nil => cases hs
  | cons a ss ih =>
    rw [List.map_cons, List.nodup_cons] at hnd
    rw [List.map_cons, Dict.get?_cons]
    rcases List.mem_cons.mp hs with rfl | hs'
    · simp
    · rw [if_neg, ih hnd.2 hs']
      intro h
      exact hnd.1 (by rw [tradesFile_inj h]; exact List.mem_map_of_mem hs')

theorem reportLoop_ok (stamp : String) (details : Bool) (ss : List StratView) : ∀ d : Folder, ∃ d' rows,
    reportLoop stamp details d ss = .ok (d', rows) ∧ Spec.strategyLines ss rows ∧
    (∀ g c, d.get? g = some c → d'.get? g = some c) ∧
    (details = false → d' = d) ∧
    (details = true → (ss.map StratView.ref).Nodup → (∀ s ∈ ss, d.get? (tradesFile stamp s.ref) = none) →
      d' = d ++ ss.map (fun s => (tradesFile stamp s.ref, Spec.tradesCsv s))) ∧
    (∀ g, d.get? g = none → (∀ s ∈ ss, tradesFile stamp s.ref ≠ g) → d'.get? g = none) := by
  induction ss with
  | nil => intro d; exact ⟨d, [], rfl, .nil, fun _ _ h => h, fun _ => rfl, fun _ _ _ => by simp, fun _ h _ => h⟩
  | cons s rest ih =>
    intro d
    obtain ⟨pf, hp, hrow⟩ := strategyRow_ok s
    rcases hdet : details with _ | _
    · obtain ⟨d', rows, h1, h2, h3, h4, h5, h6⟩ := ih d
      subst hdet
      refine ⟨d', Spec.strategyLine s pf :: rows, ?_, .cons ⟨pf, hp, rfl⟩ h2, h3, h4, fun h => absurd h (by decide),
        fun g hg hs => h6 g hg (fun s' hs' => hs s' (List.mem_cons_of_mem _ hs'))⟩
      unfold reportLoop
      simp only [bind, Except.bind, hrow, Bool.false_eq_true, if_false, h1]
    · subst hdet
      set d1 : Folder := if d.get? (tradesFile stamp s.ref) = none then
        d ++ [(tradesFile stamp s.ref, Spec.tradesCsv s)] else d with hd1
      have hcsv := dictToCsv_ok d (tradesFile stamp s.ref) s
      rw [← hd1] at hcsv
      obtain ⟨d', rows, h1, h2, h3, h4, h5, h6⟩ := ih d1
      refine ⟨d', Spec.strategyLine s pf :: rows, ?_, .cons ⟨pf, hp, rfl⟩ h2, fun g c hg => h3 g c (dictToCsv_keeps hcsv hg),
        fun h => absurd h (by decide), fun _ hnd hnone => ?_, fun g hg hs => ?_⟩
      · unfold reportLoop
        simp only [bind, Except.bind, hrow, if_true, hcsv, h1]
      · have hd : d1 = d ++ [(tradesFile stamp s.ref, Spec.tradesCsv s)] := by
          rw [hd1, if_pos (hnone s (by simp))]
        rw [List.map_cons, List.nodup_cons] at hnd
        rw [h5 rfl hnd.2 ?_, hd, List.map_cons, List.append_assoc, List.singleton_append]
        intro s' hs'
        rw [hd, Dict.get?_append_single]
        rw [hnone s' (List.mem_cons_of_mem _ hs')]
        simp only
        rw [if_neg]
        intro h
        exact hnd.1 (by rw [tradesFile_inj h]; exact List.mem_map_of_mem hs')
      · refine h6 g ?_ (fun s' hs' => hs s' (List.mem_cons_of_mem _ hs'))
        rw [hd1]
        split_ifs
        · rw [Dict.get?_append_single, hg]
          simp only
          rw [if_neg (hs s (by simp))]
        · exact hg

theorem strategyLines_keys {ss : List StratView} {rows : List (Dict Cell)} (h : Spec.strategyLines ss rows) :
    rows.all (fun r => r.keys.all (fun k => decide (k ∈ ["ref", "nb_trades", "result", "profit_factor"]))) = true := by
  rw [List.all_eq_true]
  intro r hr
  induction h with
  | nil => cases hr
  | cons h _ ih =>
    rcases List.mem_cons.mp hr with rfl | hr
    · obtain ⟨pf, -, rfl⟩ := h; rfl
    · exact ih hr

theorem tradesFile_ne (stamp ref : String) : tradesFile stamp ref ≠ strategiesFile stamp := by
  intro h
  have h' := congrArg (fun s : String => s.toList.reverse.take 7) h
  simp only [tradesFile, strategiesFile, String.toList_append, List.reverse_append] at h'
  rw [List.take_append_of_le_length (by decide), List.take_append_of_le_length (by decide)] at h'
  revert h'
  decide

/-- C52, whatever is in the folder: the report never raises and changes no existing file. -/
theorem C52_nothing_damaged (stamp : String) (d : Folder) (ss : List StratView) (details : Bool) :
    ∃ d', report stamp d ss details = .ok d' ∧ ∀ f c, d.get? f = some c → d'.get? f = some c := by
  obtain ⟨d1, rows, h1, h2, h3, -⟩ := reportLoop_ok stamp details ss d
  unfold report
  simp only [bind, Except.bind, h1]
  unfold dictToCsv
  rcases h : d1.get? (strategiesFile stamp) with _ | c
  · simp only [strategyLines_keys h2, if_true]
    refine ⟨_, rfl, fun f c hf => ?_⟩
    have hf' := h3 f c hf
    rw [Dict.get?_set, if_neg]
    · exact hf'
    · intro hfe; rw [hfe, hf'] at h; cases h
  · exact ⟨d1, rfl, h3⟩

/-- Spec: what a report must leave in the folder. -/
structure Spec.Reported (stamp : String) (ss : List StratView) (details : Bool) (d' : Folder) : Prop where
  strategies : ∃ rows, Spec.strategyLines ss rows ∧
    d'.get? (strategiesFile stamp) = some ⟨["ref", "nb_trades", "result", "profit_factor"], rows⟩
  trades : details = true → ∀ s ∈ ss, d'.get? (tradesFile stamp s.ref) = some (Spec.tradesCsv s)

/-- C52 when no file of that second is there yet and the references are distinct: the folder gets exactly the files
asked for.  Missing for the full statement: a report repeated within one second, and strategies with one reference
(`C52_false_same_second`, `C52_false_same_ref`): their lines are silently lost. -/
theorem C52_report_partial (stamp : String) (d : Folder) (ss : List StratView) (details : Bool)
    (hnew : d.get? (strategiesFile stamp) = none) (hnd : (ss.map StratView.ref).Nodup)
    (hnone : ∀ s ∈ ss, d.get? (tradesFile stamp s.ref) = none) :
    ∃ d', report stamp d ss details = .ok d' ∧ Spec.Reported stamp ss details d' ∧
      d'.keys = d.keys ++ (if details then ss.map (fun s => tradesFile stamp s.ref) else []) ++ [strategiesFile stamp] := by
  obtain ⟨d1, rows, h1, h2, h3, h4, h5, h6⟩ := reportLoop_ok stamp details ss d
  have hn1 : d1.get? (strategiesFile stamp) = none := h6 _ hnew (fun s _ => tradesFile_ne stamp s.ref)
  have hfiles : details = true → ∀ s ∈ ss, d1.get? (tradesFile stamp s.ref) = some (Spec.tradesCsv s) := by
    intro hd s hs
    rw [h5 hd hnd hnone, get?_append_none (hnone s hs)]
    exact get?_files stamp ss hnd hs
  unfold report
  simp only [bind, Except.bind, h1]
  unfold dictToCsv
  rw [hn1]
  simp only [strategyLines_keys h2, if_true]
  refine ⟨_, rfl, ⟨⟨rows, h2, by rw [Dict.get?_set, if_pos rfl]⟩, fun hd s hs => ?_⟩, ?_⟩
  · rw [Dict.get?_set, if_neg (tradesFile_ne stamp s.ref).symm]
    exact hfiles hd s hs
  · rw [Dict.set_new _ _ _ hn1]
    rcases details with _ | _
    · rw [h4 rfl]; simp [Dict.keys]
    · rw [h5 rfl hnd hnone]; simp [Dict.keys, List.map_map]

/-- C52 as stated. -/
def Spec.C52 : Prop := ∀ (stamp : String) (d : Folder) (ss : List StratView) (details : Bool),
  ∃ d', report stamp d ss details = .ok d' ∧ Spec.Reported stamp ss details d'

end

/-! ## C53 -/

theorem getEpic_foldl (l : List (String × ℕ)) : ∀ (d : Dict ℕ) (r : String),
    (l.foldl (fun d e => d.set e.1 e.2) d).get? r =
      ((l.reverse.find? (fun e => e.1 == r)).map Prod.snd).or (d.get? r) := by
  induction l with
  | nil => intro d r; rfl
  | cons e l ih =>
    intro d r
    rw [List.foldl_cons, ih, List.reverse_cons, List.find?_append]
    generalize l.reverse.find? (fun e => e.1 == r) = o
    rcases o with _ | x
    · rw [Dict.get?_set]
      by_cases h : e.1 = r
      · subst h; simp
      · have h' : (e.1 == r) = false := by simpa using h
        rw [if_neg h]; simp [h']
    · rfl

/-- C53: the epic returned is the last one given with that reference; none iff there is none. -/
theorem C53_lookup (epics : List (String × ℕ)) (r : String) :
    (∀ e, getEpicByRef (tickProviderEpics epics) r = some e ↔
      ∃ l1 l2, epics = l1 ++ (r, e) :: l2 ∧ ∀ x ∈ l2, x.1 ≠ r) ∧
    (getEpicByRef (tickProviderEpics epics) r = none ↔ ∀ x ∈ epics, x.1 ≠ r) := by
  have h : getEpicByRef (tickProviderEpics epics) r =
      (epics.reverse.find? (fun e => e.1 == r)).map Prod.snd := by
    unfold getEpicByRef tickProviderEpics
    rw [getEpic_foldl]
    exact Option.or_none
  rw [h]
  constructor
  · intro e
    rw [Option.map_eq_some_iff]
    constructor
    · rintro ⟨x, h1, rfl⟩
      rw [List.find?_eq_some_iff_append] at h1
      obtain ⟨h2, as, bs, h3, h4⟩ := h1
      have hx : x.1 = r := by simpa using h2
      refine ⟨bs.reverse, as.reverse, ?_, ?_⟩
      · have := congrArg List.reverse h3
        rw [List.reverse_reverse] at this
        rw [this, ← hx]; simp
      · intro y hy
        have := h4 y (List.mem_reverse.mp hy)
        simpa using this
    · rintro ⟨l1, l2, h1, h2⟩
      refine ⟨(r, e), ?_, rfl⟩
      rw [List.find?_eq_some_iff_append]
      refine ⟨by simp, l2.reverse, l1.reverse, by rw [h1]; simp, ?_⟩
      intro y hy
      have := h2 y (List.mem_reverse.mp hy)
      simpa using this
  · rw [Option.map_eq_none_iff, List.find?_eq_none]
    simp

/-- Concrete case of C53. -/
example : getEpicByRef (tickProviderEpics [("a", 0), ("b", 1), ("a", 2)]) "a" = some 2 ∧
    getEpicByRef (tickProviderEpics [("a", 0), ("b", 1), ("a", 2)]) "b" = some 1 ∧
    getEpicByRef (tickProviderEpics [("a", 0), ("b", 1), ("a", 2)]) "c" = none := by decide

/-! ## C54 -/

theorem uuidPrefix_eq (u : Uuid) : uuidPrefix u = [u 0, u 1, u 2, u 3, u 4] := by
  unfold uuidPrefix
  rw [← List.map_take]
  rfl

theorem hexChar_inj : Function.Injective hexChar := by decide

/-- C54: explicit references are kept, absent and empty ones become the first five hexadecimal digits of the UUID; two
automatic references are equal exactly when those digits are.  Missing for the full statement: distinctness
(`C54_false`). -/
theorem C54_references_partial (ref : Option String) (u : Uuid) :
    (∀ s, ref = some s → s ≠ "" → refOf ref u = s) ∧
    (ref = none ∨ ref = some "" → (refOf ref u).length = 5 ∧
      (∀ c ∈ (refOf ref u).toList, c ∈ "0123456789abcdef".toList) ∧
      ∀ u', refOf ref u = refOf none u' ↔ ∀ i : Fin 32, i.val < 5 → u i = u' i) := by
  constructor
  · rintro s rfl hs
    exact if_neg hs
  · intro h
    have hr : refOf ref u = String.ofList ((uuidPrefix u).map hexChar) := by
      rcases h with rfl | rfl
      · rfl
      · simp [refOf]
    rw [hr]
    refine ⟨by rw [uuidPrefix_eq]; simp, ?_, ?_⟩
    · intro c hc
      rw [String.toList_ofList] at hc
      obtain ⟨d, -, rfl⟩ := List.mem_map.mp hc
      unfold hexChar
      exact List.getElem_mem _
    · intro u'
      rw [show refOf none u' = String.ofList ((uuidPrefix u').map hexChar) from rfl]
      rw [String.ofList_inj, List.map_inj_right (fun _ _ h => hexChar_inj h), uuidPrefix_eq, uuidPrefix_eq]
      constructor
      · intro h i hi
        simp only [List.cons.injEq, and_true] at h
        obtain ⟨h0, h1, h2, h3, h4⟩ := h
        have : i = 0 ∨ i = 1 ∨ i = 2 ∨ i = 3 ∨ i = 4 := by
          rcases i with ⟨i, hlt⟩
          simp only at hi
          rcases i with _ | _ | _ | _ | _ | i
          · exact .inl rfl
          · exact .inr (.inl rfl)
          · exact .inr (.inr (.inl rfl))
          · exact .inr (.inr (.inr (.inl rfl)))
          · exact .inr (.inr (.inr (.inr rfl)))
          · omega
        rcases this with rfl | rfl | rfl | rfl | rfl <;> assumption
      · intro h
        rw [h 0 (by decide), h 1 (by decide), h 2 (by decide), h 3 (by decide), h 4 (by decide)]

/-- C54 as stated: automatic references of objects with different UUIDs are distinct. -/
def Spec.C54 : Prop := ∀ u u' : Uuid, u ≠ u' → refOf none u ≠ refOf none u'

/-- C54 is false: two different UUIDs with one reference; and among any 16^5 + 1 objects two share theirs. -/
theorem C54_false : ¬ Spec.C54 ∧
    ∀ us : Fin (16 ^ 5 + 1) → Uuid, ∃ i j, i ≠ j ∧ refOf none (us i) = refOf none (us j) := by
  constructor
  · intro h
    refine h (fun _ => 0) (fun i => if i.val < 5 then 0 else 1) ?_ ?_
    · intro h; have := congrFun h 31; simp at this
    · rw [(C54_references_partial none _).2 (.inl rfl) |>.2.2]
      intro i hi; simp [hi]
  · intro us
    obtain ⟨i, j, hne, he⟩ := Fintype.exists_ne_map_eq_of_card_lt
      (fun i : Fin (16 ^ 5 + 1) => (fun k : Fin 5 => us i ⟨k.val, by omega⟩ : Fin 5 → Fin 16)) (by
        rw [Fintype.card_fun, Fintype.card_fin, Fintype.card_fin, Fintype.card_fin]; omega)
    refine ⟨i, j, hne, ?_⟩
    rw [(C54_references_partial none _).2 (.inl rfl) |>.2.2]
    intro k hk
    exact congrFun he ⟨k.val, hk⟩

/-- Concrete case of C54. -/
example : refOf none (fun i => if i.val = 2 then 15 else 7) = "77f77" ∧ refOf (some "") (fun _ => 0) = "00000" ∧
    refOf (some "x") (fun _ => 0) = "x" := by decide

/-! ## Witnesses and concrete cases of C52 -/

/-- A strategy with two trades (a closed one, an open one) as the report sees it. -/
def Demo.view (ref : String) : StratView :=
  ⟨ref, [("t1", "E0", ⟨0, some 0, .buy, 2, [⟨15, 2, (Demo.tk 481 0 0).dt, .confirmed⟩], 12, 15, 6, 0,
      (Demo.tk 480 0 0).dt, .confirmed⟩),
    ("t2", "E0", ⟨0, some 0, .sell, 1, [], 10, 12, 0, -2, (Demo.tk 482 0 0).dt, .confirmed⟩)]⟩

/-- C52 is false: a second report within the same second writes nothing. -/
theorem C52_false_same_second : ¬ @Spec.C52 Arith.exact := by
  letI := Arith.exact
  intro h
  obtain ⟨d', h1, ⟨rows, h2, h3⟩, -⟩ := h "T" [("T_strategies.csv", ⟨["ref", "nb_trades", "result", "profit_factor"], []⟩)]
    [Demo.view "s"] false
  have : d' = [("T_strategies.csv", ⟨["ref", "nb_trades", "result", "profit_factor"], []⟩)] := by
    have h4 : report "T" [("T_strategies.csv", ⟨["ref", "nb_trades", "result", "profit_factor"], []⟩)]
      [Demo.view "s"] false = .ok [("T_strategies.csv", ⟨["ref", "nb_trades", "result", "profit_factor"], []⟩)] := by
      decide +kernel
    rw [h4] at h1; injection h1 with h1; exact h1.symm
  subst this
  have h5 : rows = [] := by
    have h6 : Dict.get? [("T_strategies.csv", (⟨["ref", "nb_trades", "result", "profit_factor"], []⟩ : CsvFile))]
      (strategiesFile "T") = some ⟨["ref", "nb_trades", "result", "profit_factor"], []⟩ := by decide +kernel
    rw [h6] at h3
    simpa using h3.symm
  subst h5
  cases h2

/-- C52 is false in an empty folder too: of two strategies with one reference only the first one's trades are written. -/
theorem C52_false_same_ref : letI := Arith.exact
    ¬ ∀ (stamp : String) (ss : List StratView), ∃ d', report stamp [] ss true = .ok d' ∧
      Spec.Reported stamp ss true d' := by
  letI := Arith.exact
  intro h
  obtain ⟨d', -, -, h2⟩ := h "T" [Demo.view "s", ⟨"s", []⟩]
  have h3 := h2 rfl (Demo.view "s") (by simp)
  have h4 := h2 rfl ⟨"s", []⟩ (by simp)
  rw [show (⟨"s", []⟩ : StratView).ref = (Demo.view "s").ref from rfl, h3] at h4
  revert h4
  decide +kernel

/-- Concrete case of C52: two strategies, one of them without trades, in a folder that holds another file. -/
example : letI := Arith.exact
    report "T" [("old", ⟨[], []⟩)] [Demo.view "s", ⟨"r", []⟩] true = .ok [("old", ⟨[], []⟩),
      ("T_s_trades.csv", ⟨["ref", "status", "epic", "strategy", "open_date", "direction", "open_quantity",
        "open_value", "closed_quantities", "result"],
        [[("ref", .str "t2"), ("status", .status .confirmed), ("epic", .str "E0"), ("strategy", .str "s"),
          ("open_date", .date (Demo.tk 482 0 0).dt), ("direction", .dir .sell), ("open_quantity", .int 1),
          ("open_value", .num 10), ("closed_quantities", .int 0), ("result", .num (-2))],
         [("ref", .str "t1"), ("status", .status .confirmed), ("epic", .str "E0"), ("strategy", .str "s"),
          ("open_date", .date (Demo.tk 480 0 0).dt), ("direction", .dir .buy), ("open_quantity", .int 2),
          ("open_value", .num 12), ("closed_quantities", .int 2), ("result", .num 6)]]⟩),
      ("T_r_trades.csv", ⟨[], []⟩),
      ("T_strategies.csv", ⟨["ref", "nb_trades", "result", "profit_factor"],
        [[("ref", .str "s"), ("nb_trades", .int 2), ("result", .num 4), ("profit_factor", .num 3)],
         [("ref", .str "r"), ("nb_trades", .int 0), ("result", .num 0), ("profit_factor", .num 0)]]⟩)] := by
  decide +kernel

end Estrade
