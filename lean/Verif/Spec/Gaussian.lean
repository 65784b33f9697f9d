import Verif.Spec.Noise
import Mathlib.Probability.Distributions.Gaussian.HasGaussianLaw.Independence

/-!
# Specification: Gaussian random arrays

Small and independent of the model.
-/

namespace MFA

open MeasureTheory ProbabilityTheory

noncomputable section

/-- Sample `n` of realisation `r` of a random array. -/
abbrev sample {Ω : Type*} {R : ℕ} (x : Ω → List (Fin R → ℝ)) (n : ℕ) (r : Fin R) (ω : Ω) : ℝ := ((x ω).getD n fun _ => 0) r

/-- The random array `x` is a centred Gaussian array: all its `N * R` entries together follow a (multivariate) normal distribution,
with mean zero, the covariance `Γ n m` between the samples `n` and `m` of one realisation, and different realisations
uncorrelated. -/
structure GaussianArray {Ω : Type*} [MeasurableSpace Ω] (μ : Measure Ω) {R : ℕ} (N : ℕ) (x : Ω → List (Fin R → ℝ))
    (Γ : ℕ → ℕ → ℝ) : Prop extends HasCovariance μ N x Γ where
  gaussian : HasGaussianLaw (fun ω (p : Fin N × Fin R) => sample x p.1 p.2 ω) μ

end

end MFA
