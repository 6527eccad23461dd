import Mathlib.Data.Int.Log
import Mathlib.Data.Rat.Floor
import Mathlib.Algebra.Order.Ring.Abs
/-
`double` arithmetic.  A `double` operation is the exact result rounded to the nearest number with a
53 bit significand, ties to the even significand (IEEE 754 binary64, default rounding mode).
Simplification: the exponent range is unbounded, so there is no overflow to infinity, no subnormal
number, no NaN and no signed zero.  Every value the modelled functions form (word values, ratios of
word values, counts) has magnitude between 2^-64 and 2^128 or is zero, far inside the real range.
-/
namespace TFR.Fl

/-- Nearest integer, ties to even (the IEEE 754 roundTiesToEven rule on the significand). -/
def roundEven (x : ℚ) : ℤ :=
  if x - ⌊x⌋ < 1 / 2 then ⌊x⌋
  else if 1 / 2 < x - ⌊x⌋ then ⌊x⌋ + 1
  else if ⌊x⌋ % 2 = 0 then ⌊x⌋ else ⌊x⌋ + 1

/-- The value of one unit in the last place of a positive number: its 53 bit significand, scaled to an
integer, lies in [2^52, 2^53). -/
def ulp (x : ℚ) : ℚ := (2 : ℚ) ^ (Int.log 2 x - 52)

/-- Rounding of a non-negative rational to binary64 (unbounded exponent). -/
def rndPos (x : ℚ) : ℚ := if x = 0 then 0 else roundEven (x / ulp x) * ulp x

/-- Rounding of a rational to binary64 (unbounded exponent). -/
def rnd (x : ℚ) : ℚ := if x < 0 then -rndPos (-x) else rndPos x

/-- `a + b`, `a - b`, `a * b`, `a / b` on `double`, and the conversion of an unsigned integer. -/
def add (a b : ℚ) : ℚ := rnd (a + b)
def sub (a b : ℚ) : ℚ := rnd (a - b)
def mul (a b : ℚ) : ℚ := rnd (a * b)
def div (a b : ℚ) : ℚ := rnd (a / b)
def ofNat (n : Nat) : ℚ := rnd n

end TFR.Fl
