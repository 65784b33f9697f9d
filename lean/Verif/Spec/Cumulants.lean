import Mathlib.Analysis.SpecialFunctions.Log.Basic
import Mathlib.Analysis.SpecialFunctions.Exp

/-! Specification of moments and cumulants of a finite sample (no repository code is modelled here). -/

namespace MFA

/-- Empirical moment generating function `t ↦ mean of exp(l t)`. -/
noncomputable def empMGF (ls : List ℝ) (t : ℝ) : ℝ := (ls.map fun l => Real.exp (l * t)).sum / ls.length

/-- Empirical cumulant generating function. -/
noncomputable def empCGF (ls : List ℝ) (t : ℝ) : ℝ := Real.log (empMGF ls t)

/-- Sample mean. -/
noncomputable def mean (ls : List ℝ) : ℝ := ls.sum / ls.length

/-- Central moment of order `k` (population normalisation). -/
noncomputable def centralMoment (ls : List ℝ) (k : ℕ) : ℝ := (ls.map fun l => (l - mean ls) ^ k).sum / ls.length

end MFA
