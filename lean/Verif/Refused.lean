import Verif.Report

/-!
# Reports when the operating system refuses a file (estrade/reporting/csv.py)

`Report.report` describes reports whose files can all be opened; here `os.makedirs` and `open` may raise, and the folder is the one left behind.
-/

namespace Estrade

/-- Exceptions that leave `report`. -/
inductive ReportErr
  | py (e : PyErr)
  | os              -- OSError and its subclasses (FileNotFoundError, PermissionError, ...)
  deriving DecidableEq, Repr

/-- The answers of the operating system during one report: `folder`: the target folder exists or `os.makedirs` makes it (csv.py:18-19); `opens name`:
`open(f"{path}/{name}", ...)` returns (csv.py:27). -/
structure Os where
  folder : Bool
  opens : String → Bool

/-- The part of a path before its last "/", if there is one. -/
def dirPart (name : String) : Option (List Char) :=
  match name.toList.reverse.dropWhile (· ≠ '/') with
  | [] => none
  | _ :: rest => some rest.reverse

/-- A file system in which files may be made wherever there is a directory (`isDir`: which paths, relative to the target folder, are directories). -/
def Os.ofDirs (isDir : List Char → Bool) : Os where
  folder := true
  opens name := !isDir name.toList && (match dirPart name with
    | none => true
    | some p => isDir p)

/-- `CSVWriter.dict_to_csv` with `open_file` (csv.py:14-38): the folder afterwards and the exception.  When `writerow` raises, the lines before are in
the file. -/
def Os.dictToCsv (os : Os) (d : Folder) (filename : String) (rows : List (Dict Cell)) (headers : List String) : Folder × Option ReportErr :=
  if os.folder = true ∧ os.opens filename = true then
    match d.get? filename with
    | some _ => (d, none)
    | none =>
      let good := rows.takeWhile (fun r => r.keys.all (fun k => decide (k ∈ headers)))
      (d.set filename ⟨headers, good⟩, if good.length = rows.length then none else some (.py .value))
  else (d, some .os)

section
variable [Arith]

/-- The loop of `ReportingCSV.report` (csv.py:72-98): folder, lines of the strategies, exception. -/
def Os.reportLoop (os : Os) (stamp : String) (details : Bool) : Folder → List StratView → (Folder × List (Dict Cell)) × Option ReportErr
  | d, [] => ((d, []), none)
  | d, s :: rest =>
    match strategyRow s with
    | .error e => ((d, []), some (.py e))
    | .ok row =>
      let r := if details then os.dictToCsv d (tradesFile stamp s.ref) (tradeRows s) (headersOf (tradeRows s)) else (d, none)
      match r.2 with
      | some e => ((r.1, []), some e)
      | none =>
        let q := Os.reportLoop os stamp details r.1 rest
        ((q.1.1, row :: q.1.2), q.2)

/-- `ReportingCSV.report` (csv.py:52-105): the folder afterwards and the exception. -/
def Os.report (os : Os) (stamp : String) (d : Folder) (strategies : List StratView) (details : Bool) : Folder × Option ReportErr :=
  let r := os.reportLoop stamp details d strategies
  match r.2 with
  | some e => (r.1.1, some e)
  | none => os.dictToCsv r.1.1 (strategiesFile stamp) r.1.2 ["ref", "nb_trades", "result", "profit_factor"]

end

end Estrade
