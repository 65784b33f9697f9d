import Mathlib.Analysis.SpecialFunctions.Pow.Real
import Mathlib.Analysis.SpecialFunctions.Complex.Log

/-!
# Specification: two-dimensional discrete Fourier transform

Small and independent of the model.
-/

namespace MFA

noncomputable section

/-- The two-dimensional discrete Fourier transform of a real `N x N` image. -/
def spectrum2 {N : ℕ} (x : Fin N → Fin N → ℝ) (k l : Fin N) : ℂ :=
  ∑ a : Fin N, ∑ b : Fin N, (x a b : ℂ) * Complex.exp (-(2 * Real.pi * Complex.I * ((k : ℂ) * a + (l : ℂ) * b) / N))

/-- The signed frequency of index `k`: `0, 1, ..., -2, -1`. -/
def freq (N : ℕ) (k : Fin N) : ℤ := if 2 * (k : ℕ) < N then (k : ℤ) else (k : ℤ) - N

/-- Radial frequency of the pair `(k, l)`, with 1 instead of 0 at the origin. -/
def radial (N : ℕ) (k l : Fin N) : ℝ :=
  if freq N k = 0 ∧ freq N l = 0 then 1 else Real.sqrt ((freq N k : ℝ) ^ 2 + (freq N l : ℝ) ^ 2)

/-- The image translated by `(s, t)` on the torus. -/
def translate {N : ℕ} [NeZero N] (s t : Fin N) (x : Fin N → Fin N → ℝ) : Fin N → Fin N → ℝ := fun a b => x (a - s) (b - t)

end

end MFA
