import Verif.Refused
import Verif.Props.Reports

/-!
# C108: reports when a file cannot be written
-/

set_option linter.style.haveILetI false
set_option linter.unusedSectionVars false
set_option autoImplicit false

namespace Estrade
section
variable [Arith]

/-- Spec: a file is written unless there is one of that name. -/
def Spec.addFile (d : Folder) (f : String × CsvFile) : Folder := if f.1 ∈ d.keys then d else d ++ [f]

/-- Spec: files written one after the other. -/
def Spec.addFiles (d : Folder) (l : List (String × CsvFile)) : Folder := l.foldl Spec.addFile d

/-- Spec: the files of a report in the order in which they are written, given the lines of the strategies. -/
def Spec.reportFiles (stamp : String) (ss : List StratView) (details : Bool) (rows : List (Dict Cell)) : List (String × CsvFile) :=
  (if details then ss.map (fun s => (stamp ++ "_" ++ s.ref ++ "_trades.csv", Spec.tradesCsv s)) else []) ++
    [(stamp ++ "_strategies.csv", ⟨["ref", "nb_trades", "result", "profit_factor"], rows⟩)]

/-- Spec: the operating system lets a file be written. -/
def Spec.allowed (os : Os) (name : String) : Prop := os.folder = true ∧ os.opens name = true

/-- Spec: files are written one after the other up to the first that is refused. -/
inductive Spec.Written (os : Os) : Folder → List (String × CsvFile) → Folder × Option ReportErr → Prop
  | done (d : Folder) : Spec.Written os d [] (d, none)
  | stop (d : Folder) (f : String × CsvFile) (l : List (String × CsvFile)) : ¬ Spec.allowed os f.1 → Spec.Written os d (f :: l) (d, some .os)
  | next (d : Folder) (f : String × CsvFile) (l : List (String × CsvFile)) (r : Folder × Option ReportErr) : Spec.allowed os f.1 →
      Spec.Written os (Spec.addFile d f) l r → Spec.Written os d (f :: l) r

theorem get?_none_iff (d : Folder) (k : String) : d.get? k = none ↔ k ∉ d.keys := by
  unfold Dict.get? Dict.keys
  rw [Option.map_eq_none_iff, List.find?_eq_none]
  simp only [List.mem_map, not_exists, not_and, beq_iff_eq]

theorem osDictToCsv_ok {os : Os} {d : Folder} {f : String} {rows : List (Dict Cell)} {hs : List String} (ha : Spec.allowed os f)
    (hk : rows.all (fun r => r.keys.all (fun k => decide (k ∈ hs))) = true) :
    os.dictToCsv d f rows hs = (Spec.addFile d (f, ⟨hs, rows⟩), none) := by
  have htw : rows.takeWhile (fun r => r.keys.all (fun k => decide (k ∈ hs))) = rows := by
    have : ∀ l : List (Dict Cell), (∀ r ∈ l, r.keys.all (fun k => decide (k ∈ hs)) = true) →
        l.takeWhile (fun r => r.keys.all (fun k => decide (k ∈ hs))) = l := by
      intro l
      induction l with
      | nil => intro _; rfl
      | cons r l ih =>
        intro h
        rw [List.takeWhile_cons, if_pos (h r (by simp)), ih (fun x hx => h x (List.mem_cons_of_mem _ hx))]
    exact this rows (fun x hx => List.all_eq_true.mp hk x hx)
  unfold Os.dictToCsv Spec.addFile
  rw [if_pos (show os.folder = true ∧ os.opens f = true from ha)]
  rcases h : d.get? f with _ | c
  · have := (get?_none_iff d f).mp h
    simp only [htw, if_true, if_neg this]
    rw [Dict.set_new _ _ _ h]
  · have : f ∈ d.keys := by
      by_contra hn
      rw [(get?_none_iff d f).mpr hn] at h
      cases h
    simp only [if_pos this]

theorem osDictToCsv_refused {os : Os} {d : Folder} {f : String} {rows : List (Dict Cell)} {hs : List String} (ha : ¬ Spec.allowed os f) :
    os.dictToCsv d f rows hs = (d, some .os) := by
  unfold Os.dictToCsv
  exact if_neg ha

/-- The loop, and what follows it. -/
theorem osLoop_written (os : Os) (stamp : String) (details : Bool) (ss : List StratView) : ∀ d : Folder, ∃ rows,
    Spec.strategyLines ss rows ∧ ∀ (last : Folder → List (Dict Cell) → Folder × Option ReportErr) (tail : List (Dict Cell) → List (String × CsvFile)),
    (∀ d rows, Spec.strategyLines ss rows → Spec.Written os d (tail rows) (last d rows)) →
    Spec.Written os d ((if details then ss.map (fun s => (tradesFile stamp s.ref, Spec.tradesCsv s)) else []) ++ tail rows)
      (match (os.reportLoop stamp details d ss).2 with
        | some e => ((os.reportLoop stamp details d ss).1.1, some e)
        | none => last (os.reportLoop stamp details d ss).1.1 (os.reportLoop stamp details d ss).1.2) := by
  induction ss with
  | nil =>
    intro d
    refine ⟨[], .nil, fun last tail h => ?_⟩
    have : (if details then ([] : List StratView).map (fun s => (tradesFile stamp s.ref, Spec.tradesCsv s)) else []) = [] := by
      split_ifs <;> rfl
    rw [this, List.nil_append]
    exact h d [] .nil
  | cons s rest ih =>
    intro d
    obtain ⟨pf, hp, hrow⟩ := strategyRow_ok s
    have hcons : ∀ rows, Spec.strategyLines rest rows → Spec.strategyLines (s :: rest) (Spec.strategyLine s pf :: rows) :=
      fun rows h => .cons ⟨pf, hp, rfl⟩ h
    rcases details with _ | _
    · obtain ⟨rows, h1, h2⟩ := ih d
      refine ⟨Spec.strategyLine s pf :: rows, hcons rows h1, fun last tail h => ?_⟩
      have := h2 (fun d rows => last d (Spec.strategyLine s pf :: rows)) (fun rows => tail (Spec.strategyLine s pf :: rows))
        (fun d rows hr => h d _ (hcons rows hr))
      have he : os.reportLoop stamp false d (s :: rest) = (((os.reportLoop stamp false d rest).1.1,
          Spec.strategyLine s pf :: (os.reportLoop stamp false d rest).1.2), (os.reportLoop stamp false d rest).2) := by
        rw [Os.reportLoop]
        simp only [hrow, Bool.false_eq_true, if_false]
      rw [he]
      exact this
    · by_cases ha : Spec.allowed os (tradesFile stamp s.ref)
      · set d1 := Spec.addFile d (tradesFile stamp s.ref, Spec.tradesCsv s) with hd1
        have hcsv : os.dictToCsv d (tradesFile stamp s.ref) (tradeRows s) (headersOf (tradeRows s)) = (d1, none) := by
          rw [osDictToCsv_ok ha (keys_ok s), (tradeRows_eq s).2, (tradeRows_eq s).1]
        obtain ⟨rows, h1, h2⟩ := ih d1
        refine ⟨Spec.strategyLine s pf :: rows, hcons rows h1, fun last tail h => ?_⟩
        have := h2 (fun d rows => last d (Spec.strategyLine s pf :: rows)) (fun rows => tail (Spec.strategyLine s pf :: rows))
          (fun d rows hr => h d _ (hcons rows hr))
        have he : os.reportLoop stamp true d (s :: rest) = (((os.reportLoop stamp true d1 rest).1.1,
            Spec.strategyLine s pf :: (os.reportLoop stamp true d1 rest).1.2), (os.reportLoop stamp true d1 rest).2) := by
          rw [Os.reportLoop]
          simp only [hrow, if_true, hcsv]
        rw [he]
        simp only [if_true, List.map_cons, List.cons_append] at this ⊢
        exact .next _ _ _ _ ha this
      · obtain ⟨rows, h1, -⟩ := ih d
        refine ⟨Spec.strategyLine s pf :: rows, hcons rows h1, fun last tail _ => ?_⟩
        have he : os.reportLoop stamp true d (s :: rest) = ((d, []), some .os) := by
          rw [Os.reportLoop]
          simp only [hrow, if_true, osDictToCsv_refused ha]
        rw [he]
        simp only [if_true, List.map_cons, List.cons_append]
        exact .stop _ _ _ ha

/-- C108: whatever the operating system refuses: the files of the report are written one after the other, each unless there is one of that name, up to the
first refused one, whose exception leaves `report`; the strategies file comes last. -/
theorem C108_written (os : Os) (stamp : String) (d : Folder) (ss : List StratView) (details : Bool) :
    ∃ rows, Spec.strategyLines ss rows ∧ Spec.Written os d (Spec.reportFiles stamp ss details rows) (os.report stamp d ss details) := by
  obtain ⟨rows, h1, h2⟩ := osLoop_written os stamp details ss d
  refine ⟨rows, h1, ?_⟩
  refine h2 (fun d rows => os.dictToCsv d (strategiesFile stamp) rows ["ref", "nb_trades", "result", "profit_factor"])
    (fun rows => [(stamp ++ "_strategies.csv", ⟨["ref", "nb_trades", "result", "profit_factor"], rows⟩)]) ?_
  intro d rows hr
  by_cases ha : Spec.allowed os (strategiesFile stamp)
  · rw [osDictToCsv_ok ha (strategyLines_keys hr)]
    exact .next _ _ _ _ ha (.done _)
  · rw [osDictToCsv_refused ha]
    exact .stop _ _ _ ha

/-! ## Consequences -/

/-- Either all files are allowed and written, or those before the first refused one. -/
theorem Spec.Written.cases {os : Os} {d : Folder} {l : List (String × CsvFile)} {r : Folder × Option ReportErr} (h : Spec.Written os d l r) :
    ((∀ f ∈ l, Spec.allowed os f.1) ∧ r = (Spec.addFiles d l, none)) ∨
    ∃ pre f post, l = pre ++ f :: post ∧ (∀ g ∈ pre, Spec.allowed os g.1) ∧ ¬ Spec.allowed os f.1 ∧ r = (Spec.addFiles d pre, some .os) := by
  induction h with
  | done d => exact .inl ⟨fun _ h => (by cases h), rfl⟩
  | stop d f l h => exact .inr ⟨[], f, l, rfl, fun _ h => (by cases h), h, rfl⟩
  | next d f l r h _ ih =>
    rcases ih with ⟨a, b⟩ | ⟨pre, g, post, a, b, c, e⟩
    · refine .inl ⟨fun x hx => ?_, b⟩
      rcases List.mem_cons.mp hx with rfl | hx
      · exact h
      · exact a x hx
    · refine .inr ⟨f :: pre, g, post, by rw [a]; rfl, fun x hx => ?_, c, e⟩
      rcases List.mem_cons.mp hx with rfl | hx
      · exact h
      · exact b x hx

theorem addFile_keys (d : Folder) (f : String × CsvFile) : (∀ k ∈ d.keys, k ∈ (Spec.addFile d f).keys) ∧ f.1 ∈ (Spec.addFile d f).keys := by
  unfold Spec.addFile
  split_ifs with h
  · exact ⟨fun _ h => h, h⟩
  · unfold Dict.keys
    rw [List.map_append]
    exact ⟨fun k hk => List.mem_append_left _ hk, List.mem_append_right _ (by simp)⟩

theorem addFiles_keys (l : List (String × CsvFile)) : ∀ d : Folder, (∀ k ∈ d.keys, k ∈ (Spec.addFiles d l).keys) ∧
    ∀ f ∈ l, f.1 ∈ (Spec.addFiles d l).keys := by
  induction l with
  | nil => intro d; exact ⟨fun _ h => h, fun _ h => (by cases h)⟩
  | cons f l ih =>
    intro d
    obtain ⟨a, b⟩ := ih (Spec.addFile d f)
    obtain ⟨c, e⟩ := addFile_keys d f
    refine ⟨fun k hk => a k (c k hk), fun g hg => ?_⟩
    rcases List.mem_cons.mp hg with rfl | hg
    · exact a _ e
    · exact b g hg

theorem addFiles_prefix (l : List (String × CsvFile)) : ∀ d : Folder, d <+: Spec.addFiles d l := by
  induction l with
  | nil => intro d; exact List.prefix_rfl
  | cons f l ih =>
    intro d
    refine List.IsPrefix.trans ?_ (ih (Spec.addFile d f))
    unfold Spec.addFile
    split_ifs
    · exact List.prefix_rfl
    · exact List.prefix_append _ _

theorem addFiles_known (l : List (String × CsvFile)) : ∀ d : Folder, (∀ f ∈ l, f.1 ∈ d.keys) → Spec.addFiles d l = d := by
  induction l with
  | nil => intro d _; rfl
  | cons f l ih =>
    intro d h
    have : Spec.addFile d f = d := if_pos (h f (by simp))
    change Spec.addFiles (Spec.addFile d f) l = d
    rw [this]
    exact ih d (fun g hg => h g (List.mem_cons_of_mem _ hg))

theorem addFiles_append (d : Folder) (l m : List (String × CsvFile)) : Spec.addFiles d (l ++ m) = Spec.addFiles (Spec.addFiles d l) m :=
  List.foldl_append

/-- C108: nothing is ever changed or removed, whatever is refused: the folder before is the beginning of the folder after. -/
theorem C108_kept (os : Os) (stamp : String) (d : Folder) (ss : List StratView) (details : Bool) : d <+: (os.report stamp d ss details).1 := by
  obtain ⟨rows, -, h⟩ := C108_written os stamp d ss details
  rcases h.cases with ⟨-, h⟩ | ⟨pre, f, post, -, -, -, h⟩ <;> rw [h] <;> exact addFiles_prefix _ _

/-- C108: a report raises exactly when one of its files is refused, and what it raises then is the exception of the operating system. -/
theorem C108_raises (os : Os) (stamp : String) (d : Folder) (ss : List StratView) (details : Bool) :
    (os.report stamp d ss details).2 = if os.folder = true ∧ os.opens (stamp ++ "_strategies.csv") = true ∧
      (details = true → ∀ s ∈ ss, os.opens (stamp ++ "_" ++ s.ref ++ "_trades.csv") = true) then none else some .os := by
  obtain ⟨rows, -, h⟩ := C108_written os stamp d ss details
  have hall : (∀ f ∈ Spec.reportFiles stamp ss details rows, Spec.allowed os f.1) ↔ os.folder = true ∧
      os.opens (stamp ++ "_strategies.csv") = true ∧
      (details = true → ∀ s ∈ ss, os.opens (stamp ++ "_" ++ s.ref ++ "_trades.csv") = true) := by
    unfold Spec.reportFiles Spec.allowed
    constructor
    · intro h
      obtain ⟨a, b⟩ := h _ (List.mem_append_right _ (List.mem_singleton_self _))
      refine ⟨a, b, fun hd s hs => ?_⟩
      refine (h (stamp ++ "_" ++ s.ref ++ "_trades.csv", Spec.tradesCsv s) (List.mem_append_left _ ?_)).2
      rw [if_pos hd]
      exact List.mem_map.mpr ⟨s, hs, rfl⟩
    · rintro ⟨a, b, c⟩ f hf
      rcases List.mem_append.mp hf with hf | hf
      · rcases details with _ | _
        · cases hf
        · obtain ⟨s, hs, rfl⟩ := List.mem_map.mp hf
          exact ⟨a, c rfl s hs⟩
      · rw [List.mem_singleton.mp hf]
        exact ⟨a, b⟩
  rcases h.cases with ⟨a, b⟩ | ⟨pre, f, post, a, b, c, e⟩
  · rw [if_pos (hall.mp a), b]
  · rw [if_neg, e]
    intro hn
    refine c (hall.mpr hn f ?_)
    rw [a]
    exact List.mem_append_right _ (List.mem_cons_self ..)

/-- C108: a report that raised writes no strategies file, whatever the cause. -/
theorem C108_no_summary (os : Os) (stamp : String) (d : Folder) (ss : List StratView) (details : Bool)
    (hnew : stamp ++ "_strategies.csv" ∉ d.keys) :
    stamp ++ "_strategies.csv" ∈ (os.report stamp d ss details).1.keys ↔ (os.report stamp d ss details).2 = none := by
  obtain ⟨rows, -, h⟩ := C108_written os stamp d ss details
  rcases h.cases with ⟨a, b⟩ | ⟨pre, f, post, a, b, c, e⟩
  · rw [b]
    refine ⟨fun _ => rfl, fun _ => ?_⟩
    exact (addFiles_keys _ d).2 (stamp ++ "_strategies.csv", ⟨_, rows⟩) (List.mem_append_right _ (List.mem_singleton_self _))
  · rw [e]
    refine ⟨fun hk => ?_, fun hk => (by cases hk)⟩
    exfalso
    have hpre : ∀ g ∈ pre, g.1 ≠ stamp ++ "_strategies.csv" := by
      unfold Spec.reportFiles at a
      obtain ⟨post', hp⟩ : ∃ post', (if details then ss.map (fun s => (stamp ++ "_" ++ s.ref ++ "_trades.csv", Spec.tradesCsv s)) else []) =
          pre ++ post' := by
        rcases List.append_eq_append_iff.mp a with ⟨x, hx, hy⟩ | ⟨x, hx, hy⟩
        · rcases x with _ | ⟨y, x⟩
          · exact ⟨[], by rw [hx]; simp⟩
          · rw [List.cons_append] at hy
            have := (List.cons.inj hy).2
            simp at this
        · exact ⟨x, hx⟩
      intro g hg
      have hgm : g ∈ (if details then ss.map (fun s => (stamp ++ "_" ++ s.ref ++ "_trades.csv", Spec.tradesCsv s)) else []) := by
        rw [hp]
        exact List.mem_append_left _ hg
      rcases details with _ | _
      · cases hgm
      · obtain ⟨s, -, rfl⟩ := List.mem_map.mp hgm
        exact tradesFile_ne stamp s.ref
    have : ∀ (l : List (String × CsvFile)) (d : Folder), (∀ g ∈ l, g.1 ≠ stamp ++ "_strategies.csv") → stamp ++ "_strategies.csv" ∉ d.keys →
        stamp ++ "_strategies.csv" ∉ (Spec.addFiles d l).keys := by
      intro l
      induction l with
      | nil => intro d _ h; exact h
      | cons f l ih =>
        intro d h1 h2
        refine ih _ (fun g hg => h1 g (List.mem_cons_of_mem _ hg)) ?_
        unfold Spec.addFile
        split_ifs
        · exact h2
        · unfold Dict.keys
          rw [List.map_append, List.mem_append]
          rintro (h | h)
          · exact h2 h
          · exact h1 f (by simp) (List.mem_singleton.mp h).symm
    exact this pre d hpre hnew hk

theorem strategyLines_unique {ss : List StratView} {r r' : List (Dict Cell)} (h : Spec.strategyLines ss r) (h' : Spec.strategyLines ss r') : r = r' := by
  unfold Spec.strategyLines at h
  induction h generalizing r' with
  | nil => cases h'; rfl
  | cons h _ ih =>
    cases h' with
    | cons g gs =>
      obtain ⟨pf, a, b⟩ := h
      obtain ⟨pf', a', b'⟩ := g
      rw [a] at a'
      cases a'
      rw [b, b', ih gs]

/-- C108: a report that raised can be repeated in the same second once nothing is refused: the folder is then what it would have been without the failure. -/
theorem C108_retry (os : Os) (stamp : String) (d : Folder) (ss : List StratView) (details : Bool) (os' : Os) (hall : os'.folder = true)
    (hopen : ∀ f, os'.opens f = true) :
    os'.report stamp (os.report stamp d ss details).1 ss details = os'.report stamp d ss details ∧ (os'.report stamp d ss details).2 = none := by
  have hok : ∀ d, ∃ rows, Spec.strategyLines ss rows ∧ os'.report stamp d ss details = (Spec.addFiles d (Spec.reportFiles stamp ss details rows), none) := by
    intro d
    obtain ⟨rows, hr, h⟩ := C108_written os' stamp d ss details
    rcases h.cases with ⟨-, h⟩ | ⟨pre, f, post, -, -, h, -⟩
    · exact ⟨rows, hr, h⟩
    · exact absurd ⟨hall, hopen _⟩ h
  have huniq := fun r r' => strategyLines_unique (ss := ss) (r := r) (r' := r')
  obtain ⟨rows, hr, h⟩ := C108_written os stamp d ss details
  obtain ⟨rows1, hr1, h1⟩ := hok d
  obtain ⟨rows2, hr2, h2⟩ := hok (os.report stamp d ss details).1
  cases huniq _ _ hr1 hr
  cases huniq _ _ hr2 hr
  rw [h1, h2]
  refine ⟨?_, rfl⟩
  congr 1
  rcases h.cases with ⟨-, e⟩ | ⟨pre, f, post, a, -, -, e⟩
  · rw [e]
    exact addFiles_known _ _ (addFiles_keys _ d).2
  · rw [e, a, addFiles_append, addFiles_known pre _ (addFiles_keys _ d).2, ← addFiles_append]

/-- C108: where nothing is refused this is the report of C52 and C82. -/
theorem C108_agrees (os : Os) (stamp : String) (d : Folder) (ss : List StratView) (details : Bool) (hall : os.folder = true)
    (hopen : ∀ f, os.opens f = true) : report stamp d ss details = .ok (os.report stamp d ss details).1 := by
  have hloop : ∀ (ss : List StratView) (d : Folder), ∃ d' rows, Spec.strategyLines ss rows ∧ reportLoop stamp details d ss = .ok (d', rows) ∧
      os.reportLoop stamp details d ss = ((d', rows), none) := by
    intro ss
    induction ss with
    | nil => intro d; exact ⟨d, [], .nil, rfl, rfl⟩
    | cons s rest ih =>
      intro d
      obtain ⟨pf, hp, hrow⟩ := strategyRow_ok s
      rcases details with _ | _
      · obtain ⟨d', rows, h0, h1, h2⟩ := ih d
        refine ⟨d', Spec.strategyLine s pf :: rows, .cons ⟨pf, hp, rfl⟩ h0, ?_, ?_⟩
        · rw [reportLoop]
          simp only [bind, Except.bind, hrow, Bool.false_eq_true, if_false, h1]
        · rw [Os.reportLoop]
          simp only [hrow, Bool.false_eq_true, if_false, h2]
      · have hcsv := osDictToCsv_ok (d := d) (show Spec.allowed os (tradesFile stamp s.ref) from ⟨hall, hopen _⟩) (keys_ok s)
        have hcsv' := dictToCsv_ok d (tradesFile stamp s.ref) s
        have he : (if d.get? (tradesFile stamp s.ref) = none then d ++ [(tradesFile stamp s.ref, Spec.tradesCsv s)] else d) =
            Spec.addFile d (tradesFile stamp s.ref, ⟨headersOf (tradeRows s), tradeRows s⟩) := by
          unfold Spec.addFile
          rw [(tradeRows_eq s).2, (tradeRows_eq s).1]
          by_cases h : d.get? (tradesFile stamp s.ref) = none
          · rw [if_pos h, if_neg ((get?_none_iff _ _).mp h)]
          · rw [if_neg h, if_pos (not_not.mp (fun h' => h ((get?_none_iff _ _).mpr h')))]
        rw [he] at hcsv'
        obtain ⟨d', rows, h0, h1, h2⟩ := ih (Spec.addFile d (tradesFile stamp s.ref, ⟨headersOf (tradeRows s), tradeRows s⟩))
        refine ⟨d', Spec.strategyLine s pf :: rows, .cons ⟨pf, hp, rfl⟩ h0, ?_, ?_⟩
        · rw [reportLoop]
          simp only [bind, Except.bind, hrow, if_true, hcsv', h1]
        · rw [Os.reportLoop]
          simp only [hrow, if_true, hcsv, h2]
  obtain ⟨d', rows, h0, h1, h2⟩ := hloop ss d
  unfold report Os.report
  simp only [bind, Except.bind, h1, h2]
  rw [osDictToCsv_ok (⟨hall, hopen _⟩ : Spec.allowed os (strategiesFile stamp)) (strategyLines_keys h0)]
  unfold dictToCsv Spec.addFile
  rcases h : d'.get? (strategiesFile stamp) with _ | c
  · simp only [strategyLines_keys h0, if_true, if_neg ((get?_none_iff _ _).mp h)]
    rw [Dict.set_new _ _ _ h]
  · have : strategiesFile stamp ∈ d'.keys := by
      by_contra hn
      rw [(get?_none_iff _ _).mpr hn] at h
      cases h
    simp only [if_pos this]

/-! ## References with "/" -/

theorem dirPart_none {name : String} (h : '/' ∉ name.toList) : dirPart name = none := by
  unfold dirPart
  have : name.toList.reverse.dropWhile (fun c => decide (c ≠ '/')) = [] := by
    rw [← List.append_nil name.toList.reverse, List.dropWhile_append_of_pos]
    · rfl
    · intro c hc
      simpa using fun h' : c = '/' => h (by rw [← h']; exact List.mem_reverse.mp hc)
  rw [this]

theorem dirPart_some (name : String) (a b : List Char) (h : name.toList = a ++ '/' :: b) (hb : '/' ∉ b) : dirPart name = some a := by
  unfold dirPart
  have : name.toList.reverse.dropWhile (fun c => decide (c ≠ '/')) = '/' :: a.reverse := by
    rw [h, List.reverse_append, List.reverse_cons, List.append_assoc, List.dropWhile_append_of_pos]
    · simp
    · intro c hc
      simpa using fun h' : c = '/' => hb (by rw [← h']; exact List.mem_reverse.mp hc)
  rw [this]
  simp

/-- C108: in a file system that makes files wherever there is a directory, a report with trade details raises exactly when some reference contains "/" and
the directory "{time}_{reference up to its last slash}" is not there (as long as no directory has the name of a file of the report). -/
theorem C108_slash (isDir : List Char → Bool) (stamp : String) (hstamp : '/' ∉ stamp.toList) (d : Folder) (ss : List StratView)
    (hname : isDir (stamp ++ "_strategies.csv").toList = false) (hnames : ∀ s ∈ ss, isDir (stamp ++ "_" ++ s.ref ++ "_trades.csv").toList = false) :
    ((Os.ofDirs isDir).report stamp d ss true).2 = some .os ↔
      ∃ s ∈ ss, ∃ a b, s.ref.toList = a ++ '/' :: b ∧ '/' ∉ b ∧ isDir (stamp.toList ++ '_' :: a) = false := by
  have hs : (Os.ofDirs isDir).opens (stamp ++ "_strategies.csv") = true := by
    unfold Os.ofDirs
    dsimp only
    rw [hname, dirPart_none]
    · rfl
    · rw [String.toList_append, List.mem_append]
      rintro (h | h)
      · exact hstamp h
      · revert h; decide
  have ht : ∀ s ∈ ss, (Os.ofDirs isDir).opens (stamp ++ "_" ++ s.ref ++ "_trades.csv") = true ↔
      ∀ a b, s.ref.toList = a ++ '/' :: b → '/' ∉ b → isDir (stamp.toList ++ '_' :: a) = true := by
    intro s hs
    unfold Os.ofDirs
    dsimp only
    rw [hnames s hs]
    simp only [Bool.not_false, Bool.true_and]
    have htl : (stamp ++ "_" ++ s.ref ++ "_trades.csv").toList = stamp.toList ++ '_' :: (s.ref.toList ++ "_trades.csv".toList) := by
      simp only [String.toList_append, List.append_assoc]
      rfl
    have hsuf : '/' ∉ "_trades.csv".toList := by decide
    by_cases hin : '/' ∈ s.ref.toList
    · obtain ⟨b, a, h1, h2⟩ := List.eq_append_cons_of_mem (List.mem_reverse.mpr hin)
      have hr : s.ref.toList = a.reverse ++ '/' :: b.reverse := by
        have := congrArg List.reverse h1
        rw [List.reverse_reverse] at this
        rw [this]
        simp
      have hb : '/' ∉ b.reverse := fun h => h2 (List.mem_reverse.mp h)
      rw [dirPart_some _ (stamp.toList ++ '_' :: a.reverse) (b.reverse ++ "_trades.csv".toList) (by rw [htl, hr]; simp)
        (by rw [List.mem_append]; rintro (h | h); exacts [hb h, hsuf h])]
      simp only
      constructor
      · intro h a' b' hr' hb'
        have hd := dirPart_some s.ref _ _ hr hb
        rw [dirPart_some s.ref _ _ hr' hb'] at hd
        cases hd
        exact h
      · intro h
        exact h _ _ hr hb
    · rw [dirPart_none]
      · simp only [true_iff]
        intro a b hr
        exact absurd (by rw [hr]; simp) hin
      · rw [htl]
        simp only [List.mem_append, List.mem_cons]
        rintro (h | h | h | h)
        · exact hstamp h
        · revert h; decide
        · exact hin h
        · exact hsuf h
  rw [C108_raises]
  constructor
  · intro h
    split_ifs at h with hc
    by_contra hn
    refine hc ⟨rfl, hs, fun _ s hsm => (ht s hsm).mpr ?_⟩
    intro a b h1 h2
    by_contra h3
    exact hn ⟨s, hsm, a, b, h1, h2, by simpa using h3⟩
  · rintro ⟨s, hsm, a, b, h1, h2, h3⟩
    rw [if_neg]
    rintro ⟨-, -, hc⟩
    have := (ht s hsm).mp (hc rfl s hsm) a b h1 h2
    rw [h3] at this
    cases this

/-- C108: without trade details references do not matter. -/
theorem C108_summary_only (os : Os) (stamp : String) (d : Folder) (ss : List StratView) (hf : os.folder = true)
    (ho : os.opens (stamp ++ "_strategies.csv") = true) (hnew : stamp ++ "_strategies.csv" ∉ d.keys) :
    ∃ rows, Spec.strategyLines ss rows ∧
      os.report stamp d ss false = (d ++ [(stamp ++ "_strategies.csv", ⟨["ref", "nb_trades", "result", "profit_factor"], rows⟩)], none) := by
  obtain ⟨rows, hr, h⟩ := C108_written os stamp d ss false
  refine ⟨rows, hr, ?_⟩
  rcases h.cases with ⟨-, h⟩ | ⟨pre, f, post, a, -, h, -⟩
  · rw [h]
    have : Spec.addFiles d (Spec.reportFiles stamp ss false rows) =
        Spec.addFile d (stamp ++ "_strategies.csv", ⟨["ref", "nb_trades", "result", "profit_factor"], rows⟩) := rfl
    rw [this]
    unfold Spec.addFile
    rw [if_neg hnew]
  · exfalso
    have hf' : f ∈ Spec.reportFiles stamp ss false rows := by rw [a]; simp
    unfold Spec.reportFiles at hf'
    simp only [Bool.false_eq_true, if_false, List.nil_append, List.mem_singleton] at hf'
    rw [hf'] at h
    exact h ⟨hf, ho⟩

end

/-- The naive statement: in an empty folder of an ordinary file system every strategy gets its files. -/
def Spec.C108 : Prop := ∀ [Arith] (stamp : String) (ss : List StratView), '/' ∉ stamp.toList → (ss.map StratView.ref).Nodup →
  ∀ s ∈ ss, stamp ++ "_" ++ s.ref ++ "_trades.csv" ∈ ((Os.ofDirs (fun _ => false)).report stamp [] ss true).1.keys

/-- It is false: a strategy called "EUR/USD" makes the report raise; the strategy after it, whose reference is fine, and the summary are lost too. -/
theorem C108_false : ¬ Spec.C108 := by
  intro h
  have := @h Arith.exact "T" [Demo.view "EUR/USD", Demo.view "s"] (by decide) (by decide) (Demo.view "s") (by simp)
  revert this
  letI := Arith.exact
  decide +kernel

/-- Concrete case: the second of three files is refused; the repeated report completes the folder. -/
example : letI := Arith.exact
    let bad : Os := Os.ofDirs (fun _ => false)
    let good : Os := Os.ofDirs (fun p => decide (p = "T_EUR".toList))
    let ss := [Demo.view "s", Demo.view "EUR/USD", ⟨"r", []⟩]
    (bad.report "T" [("old", ⟨[], []⟩)] ss true).1.keys = ["old", "T_s_trades.csv"] ∧ (bad.report "T" [("old", ⟨[], []⟩)] ss true).2 = some .os ∧
    (good.report "T" (bad.report "T" [("old", ⟨[], []⟩)] ss true).1 ss true).1.keys =
      ["old", "T_s_trades.csv", "T_EUR/USD_trades.csv", "T_r_trades.csv", "T_strategies.csv"] ∧
    (good.report "T" (bad.report "T" [("old", ⟨[], []⟩)] ss true).1 ss true).2 = none ∧
    (bad.report "T" [] ss false).1.keys = ["T_strategies.csv"] := by
  decide +kernel

end Estrade
