import Mathlib.Data.Rat.Floor
import Mathlib.Algebra.Order.Floor.Ring
import Mathlib.Tactic.Linarith
import Mathlib.Tactic.Ring
import Mathlib.Tactic.NormNum
import Mathlib.Tactic.Positivity

/-!
# Python numbers

Python floats are modelled as the rational numbers they denote; every arithmetic operation is the
exact rational operation followed by the rounding function `fl` of the class `Arith`.
NaN, infinities and overflow are modelled in Special.lean only (see DESIGN.md).
-/

namespace Estrade

/-- Nearest integer, ties to even.  Models the digit selection of CPython's `round` (used in every
`round(·, 2)` of /repo/estrade, e.g. trade.py:337, tick.py:120). -/
def rhe (x : ℚ) : ℤ :=
  if x - ⌊x⌋ < 1 / 2 then ⌊x⌋
  else if 1 / 2 < x - ⌊x⌋ then ⌊x⌋ + 1
  else if ⌊x⌋ % 2 = 0 then ⌊x⌋ else ⌊x⌋ + 1

/-- The multiple of 0.01 nearest to `x`, ties to even. -/
def cent (x : ℚ) : ℚ := (rhe (x * 100) : ℚ) / 100

/-- Rounding behaviour of the float format.  `fl x` is the float that represents the rational `x`.
The laws are those of IEEE-754 round-to-nearest without overflow: no float (value of `fl`) is nearer to
`x` than `fl x`; rounding is symmetric; integers of at most 53 bits are floats.  Monotonicity and idempotence
follow (`fl_mono`, `fl_idem`); `Float64.lean` constructs the binary64 instance. -/
class Arith where
  fl : ℚ → ℚ
  nearest : ∀ x y, |fl x - x| ≤ |fl y - x|
  neg : ∀ x, fl (-x) = - fl x
  int_exact : ∀ n : ℤ, |n| ≤ 2 ^ 53 → fl (n : ℚ) = n

export Arith (fl)

variable [Arith]

/-- `fl` makes no error at all: idealised decimal arithmetic. -/
def Exact : Prop := ∀ x : ℚ, fl x = x

/-- Float `x + y`. -/
def fadd (x y : ℚ) : ℚ := fl (x + y)
/-- Float `x - y`. -/
def fsub (x y : ℚ) : ℚ := fl (x - y)
/-- Float `x * y`. -/
def fmul (x y : ℚ) : ℚ := fl (x * y)
/-- Float `x / y` for a divisor known to be non-zero (literal divisors 2, 3, 4 in the code). -/
def fdiv (x y : ℚ) : ℚ := fl (x / y)
/-- Python's `round(x, 2)`: half-even decimal rounding of the exact value, then conversion to float. -/
def rnd (x : ℚ) : ℚ := fl (cent x)

/-- Python's builtin `sum` on floats: left to right, starting from 0 (CPython < 3.12, the versions
the project supports: pyproject.toml `python = "^3.6"`). -/
def fsum (l : List ℚ) : ℚ := l.foldl fadd 0

/-- The idealised arithmetic is an instance (not registered globally). -/
@[reducible] def Arith.exact : Arith where
  fl x := x
  nearest x y := by simp
  neg _ := rfl
  int_exact _ _ := rfl

end Estrade
