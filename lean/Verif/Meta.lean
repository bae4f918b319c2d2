import Verif.Py

/-!
# Meta dictionaries

`Tick`, `Trade` and `TradeClose` carry a dictionary `meta`, free of use, that the library stores and never reads (mixins/meta.py:5-6,
tick.py:58, trade.py:85, trade.py:426); providers are told to write the details of a transaction there (trade_provider.py:53, 94). Dictionaries
are objects, so the model has a heap. Keys and values are texts. Other attributes of the objects are left out, and so is the assignment of
`meta` itself.
-/

set_option autoImplicit false

namespace Estrade

/-- The dictionaries made so far; those made by the program, by number; the meta of each tick, trade and close, in the order of their constructors. -/
structure Metas where
  dicts : List (Dict String)
  given : List ℕ
  objs : List ℕ
deriving Repr, DecidableEq

def Metas.start : Metas := ⟨[], [], []⟩

/-- What a program does with dictionaries. `create` is the constructor of a tick, a trade or a close, by whatever way it is reached: the keyword argument
`meta` of `epic.open_trade`, `strategy.open_trade`, `close_trade` and `close_opened_trades` is passed on unchanged (trade.py:121-135, 139-154, 210-287,
epic.py:269, 282, strategy.py:81, 95, 106), and `close_opened_trades` passes the same one to each close. A put of `none` is `pop(key, None)`. -/
inductive MetaCmd
  | dict
  | create (g : Option ℕ)
  | putObj (i : ℕ) (k : String) (v : Option String)
  | putDict (d : ℕ) (k : String) (v : Option String)
deriving Repr, DecidableEq

/-- `d[k] = v`, or `d.pop(k, None)`. -/
def putKey (k : String) : Option String → Dict String → Dict String
  | some v, d => d.set k v
  | none, d => d.filter (fun p => p.1 != k)

/-- A new object with a new dictionary. -/
def Metas.fresh (m : Metas) : Metas := { m with dicts := m.dicts ++ [[]], objs := m.objs ++ [m.dicts.length] }

/-- `MetaMixin.__init__` (mixins/meta.py:5-6): `self.meta = meta or {}`; an empty dictionary is false. None: the program speaks of a dictionary that does not
exist. -/
def Metas.init (m : Metas) : Option ℕ → Option Metas
  | none => some m.fresh
  | some d =>
    match m.given[d]? with
    | none => none
    | some r =>
      match m.dicts[r]? with
      | none => none
      | some D => if D.isEmpty then some m.fresh else some { m with objs := m.objs ++ [r] }

/-- One command. -/
def Metas.step (m : Metas) : MetaCmd → Option Metas
  | .dict => some { m with dicts := m.dicts ++ [[]], given := m.given ++ [m.dicts.length] }
  | .create g => m.init g
  | .putObj i k v => (m.objs[i]?).map (fun r => { m with dicts := m.dicts.modify r (putKey k v) })
  | .putDict d k v => (m.given[d]?).map (fun r => { m with dicts := m.dicts.modify r (putKey k v) })

/-- A program. -/
def Metas.run : Metas → List MetaCmd → Option Metas
  | m, [] => some m
  | m, c :: l => (m.step c).bind (fun m => m.run l)

/-- `obj.meta.get(k)`. -/
def Metas.read (m : Metas) (i : ℕ) (k : String) : Option String :=
  match m.objs[i]? with
  | none => none
  | some r => (m.dicts[r]?).bind (fun D => D.get? k)

end Estrade
