import Mathlib.Data.List.Range
import Mathlib.Data.Real.Basic

/-! Specification used by C135: the part recorded so far of a signal that goes on for ever. -/

namespace MFA

/-- The first `N` samples (rows) of an infinite signal with `R` realisations (columns). -/
def firstSamples {R : ℕ} (x : ℕ → Fin R → ℝ) (N : ℕ) : List (Fin R → ℝ) := (List.range N).map x

end MFA
