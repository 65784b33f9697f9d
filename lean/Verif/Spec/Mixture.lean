import Verif.Spec.Gaussian

/-! Two signals made of the same independent sources. -/

namespace MFA

noncomputable section

/-- The signal whose sample `t` is `∑ r, α r * x t r`: a linear combination of the columns (realisations) of the array `x`. -/
def mixture {R : ℕ} (α : Fin R → ℝ) (x : List (Fin R → ℝ)) : List (Fin 1 → ℝ) := x.map fun row _ => ∑ r, α r * row r

/-- The correlation coefficient of `∑ α r X r` and `∑ β r X r` for independent `X r` of the same variance. -/
def correlation {R : ℕ} (α β : Fin R → ℝ) : ℝ := (∑ r, α r * β r) / (√(∑ r, α r ^ 2) * √(∑ r, β r ^ 2))

end

end MFA
