import Verif.Report
import Mathlib.Data.Nat.Digits.Defs

/-!
# The text of the CSV files
(estrade/reporting/csv.py:28-38, estrade/trade.py:93-106; `csv.DictWriter` with its default dialect `excel`,
CPython 3.6-3.11 Lib/csv.py and Modules/_csv.c)

Delimiter `,`, quote character `"`, doubled inside quoted fields, line terminator CR LF (the file is opened with
`newline=""`, csv.py:28, so nothing is translated), QUOTE_MINIMAL.  Texts are lists of characters; encoding is not modelled.
-/

namespace Estrade

/-- Text: its characters. -/
abbrev Text := List Char

/-- QUOTE_MINIMAL (_csv.c `join_append_data`): a field is quoted if it contains the delimiter, the quote character or a
character of the line terminator. -/
def needsQuote (s : Text) : Bool := s.any (fun c => c = ',' || c = '"' || c = '\r' || c = '\n')

/-- `doublequote` (_csv.c `join_append_data`). -/
def doubleQuotes : Text → Text
  | [] => []
  | c :: s => if c = '"' then '"' :: '"' :: doubleQuotes s else c :: doubleQuotes s

/-- A field as written. -/
def fieldText (s : Text) : Text := if needsQuote s then '"' :: (doubleQuotes s ++ ['"']) else s

/-- The fields of a row, separated by the delimiter. -/
def joinFields : List Text → Text
  | [] => []
  | [s] => fieldText s
  | s :: t :: rest => fieldText s ++ ',' :: joinFields (t :: rest)

/-- `writer.writerow` (_csv.c `csv_writerow`): a row that has fields but no text is written as `""`. -/
def rowText (fields : List Text) : Text :=
  (if fields ≠ [] ∧ joinFields fields = [] then ['"', '"'] else joinFields fields) ++ ['\r', '\n']

/-- A decimal digit. -/
def digitChar (d : ℕ) : Char := Char.ofNat (48 + d)

/-- `str(n)` for `n >= 0`. -/
def natText (n : ℕ) : Text := if n = 0 then ['0'] else ((Nat.digits 10 n).reverse).map digitChar

/-- `str(n)`. -/
def intText (n : ℤ) : Text := if n < 0 then '-' :: natText n.natAbs else natText n.natAbs

/-- `f"{n:0kd}"` for `n >= 0`. -/
def padText (k n : ℕ) : Text := List.replicate (k - (natText n).length) '0' ++ natText n

/-- `datetime.format("YYYY-MM-DD HH:mm:ss")` (trade.py:99): fields of the wall clock. -/
def dateText (d : DT) : Text :=
  padText 4 (yearOf d.wall).toNat ++ '-' :: padText 2 (monthOf d.wall).toNat ++ '-' :: padText 2 (dayOf d.wall).toNat ++
    ' ' :: padText 2 (hourOf d.wall).toNat ++ ':' :: padText 2 (minuteOf d.wall).toNat ++
    ':' :: padText 2 (secondOf d.wall).toNat

/-- `str(status)` (enums/__init__.py). -/
def statusText : Status → Text
  | .created => "TransactionStatus.CREATED".toList
  | .required => "TransactionStatus.REQUIRED".toList
  | .pending => "TransactionStatus.PENDING".toList
  | .confirmed => "TransactionStatus.CONFIRMED".toList
  | .closed => "TransactionStatus.CLOSED".toList
  | .refused => "TransactionStatus.REFUSED".toList

/-- `str(direction)`. -/
def dirText : Dir → Text
  | .buy => "TradeDirection.BUY".toList
  | .sell => "TradeDirection.SELL".toList

/-- What `csv` writes for a value: strings as they are, others by `str` (floats by `repr`, here the parameter `num`). -/
def Cell.text (num : ℚ → Text) : Cell → Text
  | .str s => s.toList
  | .int n => intText n
  | .num x => num x
  | .status s => statusText s
  | .dir d => dirText d
  | .date d => dateText d

/-- `DictWriter._dict_to_list`: the values of the header's keys, `""` for those missing. -/
def rowFields (num : ℚ → Text) (header : List String) (r : Dict Cell) : List Text :=
  header.map (fun k => match r.get? k with
    | some c => c.text num
    | none => [])

/-- `CSVWriter.dict_to_csv` on a new file (csv.py:34-38): header, then rows. -/
def fileText (num : ℚ → Text) (f : CsvFile) : Text :=
  rowText (f.header.map String.toList) ++ (f.rows.map (fun r => rowText (rowFields num f.header r))).flatten

end Estrade
