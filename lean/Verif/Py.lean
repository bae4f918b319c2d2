import Verif.Num

/-!
# Python runtime pieces: exceptions, sequence indexing and slicing, dictionaries
-/

namespace Estrade

/-- Exceptions that the modelled code can raise (estrade/exceptions.py:1-42 and builtins), plus
`diverge` for a `while` loop that does not terminate. -/
inductive PyErr
  | time        -- TimeException, mixins/timed.py:33
  | tick        -- TickException, tick.py:57,88,104
  | trade       -- TradeException, trade.py:128
  | epic        -- EpicException, epic.py:132,136,145,246
  | timeframe   -- TimeFrameException, mixins/timeframe.py:49
  | indicator   -- BaseIndicatorException, rsi.py:40,133
  | zeroDiv     -- ZeroDivisionError
  | index       -- IndexError
  | key         -- KeyError
  | value       -- ValueError
  | attr        -- AttributeError
  | notImpl     -- NotImplementedError
  | overflow    -- OverflowError, `float` of an int with no float (Special.lean only)
  | runtime     -- RuntimeError, a dict that changes size while it is iterated (Reentrant.lean only)
  | recursion   -- RecursionError (Reentrant.lean only)
  | diverge     -- a loop that never ends
  deriving DecidableEq, Repr

/-- Python's `x / y` with its exception. -/
def pyDiv [Arith] (x y : ℚ) : Except PyErr ℚ :=
  if y = 0 then .error .zeroDiv else .ok (fdiv x y)

/-- Python's `l[k:]` for an integer `k` (negative counts from the end, clipped). -/
def sliceFrom {α : Type} (l : List α) (k : ℤ) : List α :=
  if 0 ≤ k then l.drop k.toNat else l.drop (l.length - (-k).toNat)

/-- Python's `l[k]`: `none` stands for IndexError. -/
def pyGet {α : Type} (l : List α) (k : ℤ) : Option α :=
  if 0 ≤ k then l[k.toNat]?
  else if (-k).toNat ≤ l.length then l[l.length - (-k).toNat]? else none

/-- A `dict` as an insertion-ordered association list. -/
abbrev Dict (β : Type) := List (String × β)

namespace Dict
variable {β : Type}

/-- `d.get(k)`. -/
def get? (d : Dict β) (k : String) : Option β := (d.find? (fun p => p.1 == k)).map Prod.snd

/-- `d[k] = v`: overwrite in place, or append. -/
def set (d : Dict β) (k : String) (v : β) : Dict β :=
  if d.any (fun p => p.1 == k) then d.map (fun p => if p.1 == k then (k, v) else p) else d ++ [(k, v)]

/-- `list(d.keys())`. -/
def keys (d : Dict β) : List String := d.map Prod.fst

end Dict

end Estrade
