import Verif.World

/-!
# `BaseStrategy.get_trades` as the generator it is (strategy.py:111-133)

`getTrades` (World) is the list a generator gives when nothing happens between its items.  Here the generator is an object that user code
advances one item at a time, with operations, ticks and callbacks in between.
-/

set_option autoImplicit false

namespace Estrade

/-- A generator made by `strategy.get_trades(epics, open_only, only_after)` (strategy.py:111-116).  `left` is the number of entries of
`reversed(self.trades)` (strategy.py:127) not reached yet; `none` before the first `next`, when the list has not been looked at. -/
structure Gen where
  strategy : ℕ
  epics : Option (List ℕ)
  openOnly : Bool
  onlyAfter : Option DT
  left : Option ℕ
  deriving DecidableEq

/-- The call `strategy.get_trades(...)`: nothing of the body runs. -/
def Gen.new (s : ℕ) (epics : Option (List ℕ)) (openOnly : Bool) (onlyAfter : Option DT) : Gen := ⟨s, epics, openOnly, onlyAfter, none⟩

section
variable [Arith]

/-- The loop of `get_trades` (strategy.py:127-133) from the point where `n` entries are left, up to the next `yield`, the `break` or the end: the
trade yielded and the entries left.  `own` is `self.trades` as it is now; a reversed list iterator whose index is past the end stops. -/
def Gen.scan (g : Gen) (w : World) (own : List ℕ) : ℕ → Except PyErr (Option ℕ × ℕ)
  | 0 => .ok (none, 0)
  | n + 1 =>
    match own[n]? with
    | none => .ok (none, 0)
    | some i =>
      match w.trades[i]? with
      | none => .error .attr
      | some t =>
        if (match g.epics with | none => true | some es => decide (t.epic ∈ es)) && (!g.openOnly || !t.closed) then
          match g.onlyAfter with
          | some d => if t.dt.lt d then .ok (none, 0) else .ok (some i, n)
          | none => .ok (some i, n)
        else g.scan w own n

/-- `next(generator)`: the trade yielded, `none` for `StopIteration`. -/
def Gen.next (g : Gen) (w : World) : Except PyErr (Option ℕ × Gen) :=
  match w.strategies[g.strategy]? with
  | none => .error .attr
  | some st => do
    let r ← g.scan w st.trades (g.left.getD st.trades.length)
    .ok (r.1, { g with left := some r.2 })

/-- `next` called once in each of several states of a run. -/
def Gen.calls (g : Gen) : List World → Except PyErr (List (Option ℕ) × Gen)
  | [] => .ok ([], g)
  | w :: ws => do
    let r ← g.next w
    let rs ← r.2.calls ws
    .ok (r.1 :: rs.1, rs.2)

/-- `list(generator)`, or any loop over it during which nothing else happens: the trades and the generator afterwards.  Every item takes an entry,
so `n` items are enough when at most `n` entries are left. -/
def Gen.drain (g : Gen) (w : World) : ℕ → Except PyErr (List ℕ × Gen)
  | 0 => .ok ([], g)
  | n + 1 => do
    let r ← g.next w
    match r.1 with
    | none => .ok ([], r.2)
    | some i => do
      let rs ← r.2.drain w n
      .ok (i :: rs.1, rs.2)

/-- The number of `next` calls a loop over the generator needs at most. -/
def Gen.fuel (g : Gen) (w : World) : ℕ := g.left.getD ((w.strategies[g.strategy]?).elim 0 (fun st => st.trades.length)) + 1

/-- `strategy.result(generator)` (strategy.py:135-155): a generator is truthy, the loop consumes it. -/
def Gen.result (g : Gen) (w : World) : Except PyErr (ℚ × Gen) := do
  let r ← g.drain w (g.fuel w)
  .ok (strategyResult [] (.gen (r.1.filterMap (fun i => w.trades[i]?))), r.2)

/-- `strategy.profit_factor(generator)` (strategy.py:157-186). -/
def Gen.profitFactor (g : Gen) (w : World) : Except PyErr (ℚ × Gen) := do
  let r ← g.drain w (g.fuel w)
  let x ← Estrade.profitFactor [] (.gen (r.1.filterMap (fun i => w.trades[i]?)))
  .ok (x, r.2)

/-! ## User code that holds a generator -/

/-- User code: as `Prog`, and it can take the next trade of a generator. -/
inductive GenProg
  | done
  | raise (e : PyErr)
  | act (o : Op) (k : World → Option PyErr → GenProg)
  | next (k : World → Option ℕ → GenProg)

/-- What such code did: the final state, the exception it raised, and for every `next` the state at that moment and the answer. -/
structure GenRun where
  world : World
  err : Option PyErr
  calls : List (World × Option ℕ)

/-- Execution. -/
def GenProg.run : GenProg → Gen → World → GenRun
  | .done, _, w => ⟨w, none, []⟩
  | .raise e, _, w => ⟨w, some e, []⟩
  | .act o k, g, w =>
    let r := w.step o
    (k r.1 r.2).run g r.1
  | .next k, g, w =>
    match g.next w with
    | .error e => ⟨w, some e, []⟩
    | .ok (a, g') =>
      let r := (k w a).run g' w
      { r with calls := (w, a) :: r.calls }

/-- The same code as a callback: a generator has no effects, so it is a way to look at the state. -/
def GenProg.prog : GenProg → Gen → World → Prog
  | .done, _, _ => .done
  | .raise e, _, _ => .raise e
  | .act o k, g, _ => .act o (fun w' e => (k w' e).prog g w')
  | .next k, g, w =>
    match g.next w with
    | .error e => .raise e
    | .ok (a, g') => (k w a).prog g' w

/-- `p; rest`. -/
def Prog.andGen : Prog → GenProg → GenProg
  | .done, rest => rest
  | .raise e, _ => .raise e
  | .act o k, rest => .act o (fun w e => (k w e).andGen rest)

/-- `for trade in generator: body(trade)`, at most `n` times. -/
def GenProg.forEach (body : ℕ → World → Prog) : ℕ → GenProg
  | 0 => .done
  | n + 1 => .next fun w a => match a with
    | none => .done
    | some i => (body i w).andGen (GenProg.forEach body n)

end

end Estrade
