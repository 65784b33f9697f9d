import Mathlib.Analysis.SpecialFunctions.Pow.Real

/-!
# Specification: the textbook covariances

Small and independent of the model.
-/

namespace MFA

noncomputable section

/-- Covariance `E[B(s) B(t)]` of fractional Brownian motion with Hurst exponent `H` and `E[B(1)^2] = sigma^2`. -/
def fbmCovariance (H sigma s t : ℝ) : ℝ := sigma ^ 2 / 2 * (|s| ^ (2 * H) + |t| ^ (2 * H) - |t - s| ^ (2 * H))

/-- Covariance of the increments `B(s + d) - B(s)` and `B(t + d) - B(t)`: fractional Gaussian noise of step `d`. -/
def fgnCovariance (H sigma d s t : ℝ) : ℝ :=
  fbmCovariance H sigma (s + d) (t + d) - fbmCovariance H sigma (s + d) t - fbmCovariance H sigma s (t + d)
    + fbmCovariance H sigma s t

/-- Covariance at lag `k` of the log-volatility of a multifractal random walk: logarithmic up to the integral scale `L`, zero
beyond. -/
def mrwLogCovariance (lam L : ℝ) (k : ℕ) : ℝ := if (k : ℝ) + 1 ≤ L then lam ^ 2 * Real.log (L / ((k : ℝ) + 1)) else 0

end

end MFA
