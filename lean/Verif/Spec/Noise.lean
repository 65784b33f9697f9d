import Mathlib.MeasureTheory.Integral.Bochner.Basic
import Mathlib.Probability.Distributions.Gaussian.Real
import Mathlib.Probability.HasLaw
import Mathlib.Probability.Independence.Basic

/-!
# Specification: white noise and second order statistics

Small and independent of the model.
-/

namespace MFA

open MeasureTheory ProbabilityTheory

noncomputable section

/-- A stream of random variables that is centred, of unit variance and uncorrelated (for instance independent standard normal
draws: `StdNormal.whiteNoise` in `Verif.Lemmas.Noise`). -/
structure WhiteNoise {Ω : Type*} [MeasurableSpace Ω] (μ : Measure Ω) (g : Ω → ℕ → ℝ) : Prop where
  integrable : ∀ i, Integrable (fun ω => g ω i) μ
  integrable_mul : ∀ i k, Integrable (fun ω => g ω i * g ω k) μ
  mean : ∀ i, ∫ ω, g ω i ∂μ = 0
  cov : ∀ i k, ∫ ω, g ω i * g ω k ∂μ = if i = k then 1 else 0

/-- Independent standard normal draws: what `np.random.randn` promises. -/
structure StdNormal {Ω : Type*} [MeasurableSpace Ω] (μ : Measure Ω) (g : Ω → ℕ → ℝ) : Prop where
  law : ∀ i, HasLaw (fun ω => g ω i) (gaussianReal 0 1) μ
  indep : iIndepFun (fun i ω => g ω i) μ

/-- The random array `x` (rows: time, columns: realisations) with `N` rows has mean zero, the covariance `Γ n m` between the
samples `n` and `m` of one realisation, and different realisations are uncorrelated. -/
structure HasCovariance {Ω : Type*} [MeasurableSpace Ω] (μ : Measure Ω) {R : ℕ} (N : ℕ) (x : Ω → List (Fin R → ℝ))
    (Γ : ℕ → ℕ → ℝ) : Prop where
  length : ∀ ω, (x ω).length = N
  integrable1 : ∀ n < N, ∀ r, Integrable (fun ω => ((x ω).getD n fun _ => 0) r) μ
  mean : ∀ n < N, ∀ r, ∫ ω, ((x ω).getD n fun _ => 0) r ∂μ = 0
  integrable : ∀ n < N, ∀ m < N, ∀ r r', Integrable (fun ω => ((x ω).getD n fun _ => 0) r * ((x ω).getD m fun _ => 0) r') μ
  cov : ∀ n < N, ∀ m < N, ∀ r r',
    ∫ ω, ((x ω).getD n fun _ => 0) r * ((x ω).getD m fun _ => 0) r' ∂μ = if r = r' then Γ n m else 0

end

end MFA
