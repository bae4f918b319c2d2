import Verif.World

/-!
# CSV reports, tick provider, references
(estrade/reporting/csv.py, estrade/tick_provider.py, estrade/mixins/ref.py)
-/

namespace Estrade

/-- A CSV cell: the Python value before `csv` formats it (its text: CsvText.lean). -/
inductive Cell
  | str (s : String)
  | int (n : ℤ)
  | num (x : ℚ)
  | status (s : Status)
  | dir (d : Dir)
  | date (d : DT)
  deriving DecidableEq

/-- A written file: header line and rows. -/
structure CsvFile where
  header : List String
  rows : List (Dict Cell)
  deriving DecidableEq

/-- The target folder: file name to content, in order of creation. -/
abbrev Folder := Dict CsvFile

/-- `CSVWriter.open_file` and `dict_to_csv` (csv.py:15-38): header and rows are written only when the
file does not exist yet (an existing file is opened for appending and left as it is).
`DictWriter.writerow` raises ValueError for keys outside the header. -/
def dictToCsv (d : Folder) (filename : String) (rows : List (Dict Cell)) (headers : List String) :
    Except PyErr Folder :=
  match d.get? filename with
  | some _ => .ok d
  | none =>
    if rows.all (fun r => r.keys.all (fun k => decide (k ∈ headers))) then
      .ok (d.set filename ⟨headers, rows⟩)
    else .error .value

section
variable [Arith]

/-- `Trade.asdict` (trade.py:93-106).  `tref`, `eref`, `sref`: references of the trade, its epic and
its strategy (`"undefined"` when there is none). -/
def tradeDict (tref eref sref : String) (t : Trade) : Dict Cell :=
  [("ref", .str tref), ("status", .status t.status), ("epic", .str eref), ("strategy", .str sref),
   ("open_date", .date t.dt), ("direction", .dir t.dir), ("open_quantity", .int t.openQty),
   ("open_value", .num t.openValue), ("closed_quantities", .int t.closedQty),
   ("result", .num t.result)]

/-- A strategy as the report sees it: its reference and its trades in order of registration, each with
the references printed for it. -/
structure StratView where
  ref : String
  trades : List (String × String × Trade)

/-- The row of a strategy in the strategies file (csv.py:74-82). -/
def strategyRow (s : StratView) : Except PyErr (Dict Cell) := do
  let own := s.trades.map (fun p => p.2.2)
  let pf ← profitFactor own .none
  .ok [("ref", .str s.ref), ("nb_trades", .int (getTrades own none false none).length),
    ("result", .num (strategyResult own .none)), ("profit_factor", .num pf)]

/-- The rows of a strategy's trades file (csv.py:84-91), newest trade first (`get_trades`). -/
def tradeRows (s : StratView) : List (Dict Cell) :=
  s.trades.reverse.map (fun p => tradeDict p.1 p.2.1 s.ref p.2.2)

/-- `headers` (csv.py:86-90): keys of the first row, `[]` without rows. -/
def headersOf (rows : List (Dict Cell)) : List String :=
  match rows with
  | [] => []
  | r :: _ => r.keys

/-- File name of a strategy's trades (csv.py:84). -/
def tradesFile (stamp ref : String) : String := stamp ++ "_" ++ ref ++ "_trades.csv"

/-- File name of the strategies (csv.py:102). -/
def strategiesFile (stamp : String) : String := stamp ++ "_strategies.csv"

/-- The loop of `ReportingCSV.report` (csv.py:72-98). -/
def reportLoop (stamp : String) (details : Bool) :
    Folder → List StratView → Except PyErr (Folder × List (Dict Cell))
  | d, [] => .ok (d, [])
  | d, s :: rest => do
    let row ← strategyRow s
    let d' ← if details then
        dictToCsv d (tradesFile stamp s.ref) (tradeRows s) (headersOf (tradeRows s))
      else .ok d
    let r ← reportLoop stamp details d' rest
    .ok (r.1, row :: r.2)

/-- `ReportingCSV.report` (csv.py:52-105) at the second printed as `stamp`. -/
def report (stamp : String) (d : Folder) (strategies : List StratView) (details : Bool) :
    Except PyErr Folder := do
  let r ← reportLoop stamp details d strategies
  dictToCsv r.1 (strategiesFile stamp) r.2 ["ref", "nb_trades", "result", "profit_factor"]

end

/-- `BaseTickProvider.__init__` (tick_provider.py:20-31): dict from reference to epic index. -/
def tickProviderEpics (epics : List (String × ℕ)) : Dict ℕ :=
  epics.foldl (fun d e => d.set e.1 e.2) []

/-- `get_epic_by_ref` (tick_provider.py:33-43). -/
def getEpicByRef (d : Dict ℕ) (ref : String) : Option ℕ := d.get? ref

/-- `BaseTickProvider.run` (tick_provider.py:45-52). -/
def tickProviderRun : Except PyErr Unit := .error .notImpl

/-- A `uuid4()` string: its hexadecimal digits (the first 8 characters are digits, then dashes
follow, which `[:5]` never reaches). -/
abbrev Uuid := Fin 32 → Fin 16

/-- `str(uuid4())[:5]`. -/
def uuidPrefix (u : Uuid) : List (Fin 16) := (List.finRange 32).map u |>.take 5


/-- The lower-case hexadecimal digit characters. -/
def hexChar (d : Fin 16) : Char := "0123456789abcdef".toList[d.val]'(by
  have h : "0123456789abcdef".toList.length = 16 := by decide
  omega)

/-- `RefMixin.ref` setter (mixins/ref.py:26-34): `ref or str(uuid4())[:5]`. -/
def refOf (ref : Option String) (u : Uuid) : String :=
  match ref with
  | none => String.ofList ((uuidPrefix u).map hexChar)
  | some s => if s = "" then String.ofList ((uuidPrefix u).map hexChar) else s

end Estrade
