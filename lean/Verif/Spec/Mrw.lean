import Verif.Spec.Gaussian
import Verif.Spec.Simul

/-!
# Specification: the multifractal random walk

Small and independent of the model.
-/

namespace MFA

open MeasureTheory ProbabilityTheory Finset

noncomputable section

/-- Increment `n` of realisation `r` of a random array; the walk starts from 0. -/
def increment {Ω : Type*} {R : ℕ} (x : Ω → List (Fin R → ℝ)) (n : ℕ) (r : Fin R) (ω : Ω) : ℝ :=
  sample x n r ω - if n = 0 then 0 else sample x (n - 1) r ω

/-- Covariance of `w_n - mean(w)` and `w_m - mean(w)`, the mean being taken over the `N` samples, when `w` has the covariance
`Γ`. -/
def centredCovariance (Γ : ℕ → ℕ → ℝ) (N n m : ℕ) : ℝ :=
  Γ n m - (∑ j ∈ range N, Γ n j) / N - (∑ i ∈ range N, Γ i m) / N + (∑ i ∈ range N, ∑ j ∈ range N, Γ i j) / (N : ℝ) ^ 2

/-- Covariance of the log-volatility of a multifractal random walk between the times `n` and `m`. -/
def mrwCovariance (lam L : ℝ) (n m : ℕ) : ℝ := mrwLogCovariance lam L (Int.natAbs ((n : ℤ) - m))

/-- The law of the multifractal random walk (with empirically centred volatility): its increments are a fractional Gaussian noise
`e` of Hurst exponent `H` on the grid of step `1/N`, multiplied by the exponential of an independent Gaussian process `w`,
logarithmically correlated up to the integral scale `L`, centred over time in each realisation and shifted by
`-lam^2/2 log L`. -/
structure MrwLaw {Ω : Type*} [MeasurableSpace Ω] (μ : Measure Ω) {R : ℕ} (N : ℕ) (H lam L sigma : ℝ)
    (x e w : Ω → List (Fin R → ℝ)) : Prop where
  noise : GaussianArray μ N e fun n m => fgnCovariance H sigma (1 / N) (n * (1 / N)) (m * (1 / N))
  volatility : GaussianArray μ N w (mrwCovariance lam L)
  independent : IndepFun (fun ω (p : Fin N × Fin R) => sample e p.1 p.2 ω) (fun ω (p : Fin N × Fin R) => sample w p.1 p.2 ω) μ
  walk : ∀ n < N, ∀ r ω, increment x n r ω =
    sample e n r ω * Real.exp (sample w n r ω - (∑ k ∈ range N, sample w k r ω) / N - lam ^ 2 / 2 * Real.log L)

end

end MFA
