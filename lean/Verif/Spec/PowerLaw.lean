import Verif.Spec.Gaussian
import Verif.Spec.Orthonormal
import Verif.Spec.FilterBank
import Verif.Model.Wavelet

/-! The experiment whose estimates are studied: a self-similar Gaussian signal, analysed with wavelets. -/

namespace MFA

open MeasureTheory ProbabilityTheory

noncomputable section

/-- `x` is a random Gaussian array of `R` independent signals of length `N` with covariance `A n + A m - c G(n - m)` (stationary
increments, for some function `A`; in particular any stationary signal, with `A = 0` and `G` the opposite of the autocovariance),
and `w` is the result of `wavelet_analysis` on it, with some fixed values of the arguments that do not matter here. -/
structure IncrementAnalysis {Ω : Type*} [MeasurableSpace Ω] (μ : Measure Ω) (wt : Wavelet) (G : ℤ → ℝ) (c g nm : ℝ) {R : ℕ} (N : ℕ)
    (x : Ω → List (Fin R → ℝ)) (w : Ω → WT R) : Prop where
  signal : ∃ A : ℕ → ℝ, GaussianArray μ N x (fun n m => A n + A m - c * G ((n : ℤ) - m))
  analysis : ∃ (p : PExp) (j1 : ℤ) (j2 : Option ℝ) (weighted : Bool),
    ∀ ω, waveletAnalysis (asFloats (x ω)) p wt j1 j2 g nm weighted = .ok (w ω)

/-- `x` is a random Gaussian array of `R` independent signals of length `N` with stationary increments and variogram
`2 c |n - m|^(2H)` (fractional Brownian motion sampled at integer times, up to a random constant), and `w` is the result of
`wavelet_analysis` on it, with some fixed values of the arguments that do not matter here. -/
structure PowerLawAnalysis {Ω : Type*} [MeasurableSpace Ω] (μ : Measure Ω) (wt : Wavelet) (H c g nm : ℝ) {R : ℕ} (N : ℕ)
    (x : Ω → List (Fin R → ℝ)) (w : Ω → WT R) : Prop where
  signal : ∃ A : ℕ → ℝ, GaussianArray μ N x (fun n m => A n + A m - c * |(n : ℝ) - m| ^ (2 * H))
  analysis : ∃ (p : PExp) (j1 : ℤ) (j2 : Option ℝ) (weighted : Bool),
    ∀ ω, waveletAnalysis (asFloats (x ω)) p wt j1 j2 g nm weighted = .ok (w ω)

/-- The returned number `x` is a finite real within `ε` of `v`. -/
def Near (x : Fl) (v ε : ℝ) : Prop := ∃ t : ℝ, x = Fl.fin t ∧ |t - v| ≤ ε

end

end MFA
