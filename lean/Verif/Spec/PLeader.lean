import Mathlib.Analysis.SpecialFunctions.Pow.Real

/-! The finite-size correction of p-leaders (no repository code is modelled here). -/

namespace MFA

/-- `((1 - 2^(-jη)) / (1 - 2^(-η)))^(-1/p)`. -/
noncomputable def pCorrection (η p : ℝ) (j : ℕ) : ℝ :=
  ((1 - (2:ℝ) ^ (-((j : ℝ) * η))) / (1 - (2:ℝ) ^ (-η))) ^ (-1 / p)

end MFA
