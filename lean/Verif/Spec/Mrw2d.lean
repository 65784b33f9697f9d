import Verif.Spec.Gaussian
import Verif.Spec.Fourier2d

/-!
# Specification: two-dimensional multifractal random fields

Small and independent of the model.
-/

namespace MFA

open MeasureTheory ProbabilityTheory

noncomputable section

/-- A finite family of random variables that is jointly Gaussian and centred, with covariance `Γ`. -/
structure GaussianField {Ω : Type*} [MeasurableSpace Ω] (μ : Measure Ω) {ι : Type} [Fintype ι] (X : Ω → ι → ℝ) (Γ : ι → ι → ℝ) : Prop where
  gaussian : HasGaussianLaw X μ
  mean : ∀ i, ∫ ω, X ω i ∂μ = 0
  cov : ∀ i j, ∫ ω, X ω i * X ω j ∂μ = Γ i j

/-- The intended covariance of the log-volatility at displacement `(a, b)` on the torus: logarithmic up to the integral scale
`L`, zero beyond. -/
def torusCovariance (N : ℕ) (lam L : ℝ) (a b : Fin N) : ℝ :=
  lam ^ 2 * Real.log (max (L / (1 + Real.sqrt ((freq N a : ℝ) ^ 2 + (freq N b : ℝ) ^ 2))) 1)

/-- The covariance that the field really has, between the points `(a, b)` and `(a', b')`. -/
def fieldCovariance (N : ℕ) (lam L : ℝ) (a b a' b' : Fin N) : ℝ :=
  (∑ k : Fin N, ∑ l : Fin N, ‖spectrum2 (torusCovariance N lam L) k l‖ *
    Real.cos (2 * Real.pi * ((k : ℝ) * ((a : ℝ) - a') + (l : ℝ) * ((b : ℝ) - b')) / N)) / (N : ℝ) ^ 4

/-- The law of the field `X`: white Gaussian noise `e` times the exponential of an independent Gaussian field `v`. -/
structure Mrw2dLaw {Ω : Type*} [MeasurableSpace Ω] (μ : Measure Ω) {N R : ℕ} (lam L : ℝ) (X e v : Ω → Fin N → Fin N → Fin R → ℝ) : Prop where
  noise : GaussianField μ (fun ω (p : Fin N × Fin N × Fin R) => e ω p.1 p.2.1 p.2.2) fun p q => if p = q then 1 else 0
  volatility : GaussianField μ (fun ω (p : Fin N × Fin N × Fin R) => v ω p.1 p.2.1 p.2.2)
    fun p q => if p.2.2 = q.2.2 then fieldCovariance N lam L p.1 p.2.1 q.1 q.2.1 else 0
  independent : IndepFun (fun ω (p : Fin N × Fin N × Fin R) => e ω p.1 p.2.1 p.2.2)
    (fun ω (p : Fin N × Fin N × Fin R) => v ω p.1 p.2.1 p.2.2) μ
  field : ∀ ω a b r, X ω a b r = e ω a b r * Real.exp (v ω a b r)

end

end MFA
