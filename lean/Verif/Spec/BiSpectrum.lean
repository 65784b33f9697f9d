import Mathlib.Data.Real.Basic

/-!
# Specification: the quadratic bivariate Legendre spectrum

Small and independent of the model.
-/

namespace MFA

/-- The quadratic approximation of the joint multifractal spectrum from the log-cumulants of order one and two, at the exponent
`x` of the first and `y` of the second signal. -/
noncomputable def biSpectrum (c10 c01 c20 c02 c11 x y : ℝ) : ℝ :=
  1 + (c02 * (x - c10) ^ 2 / 2 + c20 * (y - c01) ^ 2 / 2 - c11 * (x - c10) * (y - c01)) / (c20 * c02 - c11 ^ 2)

end MFA
