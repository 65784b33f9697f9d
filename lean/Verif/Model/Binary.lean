import Verif.Model.Rounded
import Mathlib.Data.Int.Log
import Mathlib.Algebra.Order.Round

/-!
# Correctly rounded binary arithmetic

An instance of the machines of `Model/Rounded.lean`: `p`-bit binary floating-point numbers, every operation rounded to the nearest one, ties to even, as in
IEEE 754 (`p = 53` for the `float64` numbers used by numpy), with an unbounded exponent range: no overflow, no underflow.
-/

namespace MFA

open Classical

noncomputable section

/-- The nearest integer, ties to the even one (IEEE 754 `roundTiesToEven`). -/
def roundEven (x : ℝ) : ℤ :=
  if Int.fract x < 1 / 2 then ⌊x⌋ else if 1 / 2 < Int.fract x then ⌊x⌋ + 1 else if Even ⌊x⌋ then ⌊x⌋ else ⌊x⌋ + 1

/-- The spacing of the `p`-bit numbers around `x`: `2^(e+1-p)` if `2^e ≤ |x| < 2^(e+1)`. -/
def ulp (p : ℕ) (x : ℝ) : ℝ := 2 ^ (Int.log 2 |x| + 1 - p)

/-- `x` rounded to a `p`-bit number. -/
def roundTo (p : ℕ) (x : ℝ) : ℝ := if x = 0 then 0 else roundEven (x / ulp p x) * ulp p x

/-- Rounding of the result of an operation; NaN and infinities are left alone. -/
def rnd (p : ℕ) : Fl → Fl
  | .fin x => .fin (roundTo p x)
  | v => v

end

end MFA
