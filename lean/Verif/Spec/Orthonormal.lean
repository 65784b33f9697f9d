import Verif.Spec.FilterBank
import Verif.Spec.Gaussian

/-!
# Specification: orthonormal filter banks, random signals and their wavelet coefficients

Small and independent of the model.
-/

namespace MFA

open Finset

noncomputable section

/-- The correlation of two filters at an even lag: the sum of `f[m] f'[m']` over the taps with `m - m' = 2n`. -/
def evenCorrelation (f f' : List ℝ) (n : ℤ) : ℝ :=
  ∑ m ∈ range f.length, ∑ m' ∈ range f'.length, if (m : ℤ) - m' = 2 * n then f.getD m 0 * f'.getD m' 0 else 0

/-- The filters of an orthonormal wavelet (all the `db` wavelets of pywt are orthonormal): each filter is orthonormal to its own
translates by an even number of samples, and orthogonal to those of the other one. -/
structure OrthonormalBank (wt : Wavelet) : Prop where
  lo : ∀ n : ℤ, evenCorrelation wt.dec_lo wt.dec_lo n = if n = 0 then 1 else 0
  hi : ∀ n : ℤ, evenCorrelation wt.dec_hi wt.dec_hi n = if n = 0 then 1 else 0
  cross : ∀ n : ℤ, evenCorrelation wt.dec_lo wt.dec_hi n = 0

/-- The weight of sample `t` of a signal in its coefficient `(j, k)`: the coefficient of an impulse at `t`. -/
def weight (wt : Wavelet) (j : ℕ) (k : ℤ) (t : ℤ) : ℝ := idealDetail wt (fun s => if s = t then 1 else 0) j k

/-- Neighbouring samples have nearly the same weight: the sum of the squares of the differences of consecutive weights, at scale `j`, is
`O(2^(-j))`.  (Sampled at scale `j`, a wavelet with a finite quadratic variation has this property: Haar, `db2`, and all smoother
wavelets.) -/
def RegularWavelet (wt : Wavelet) : Prop :=
  ∃ C : ℝ, ∀ j : ℕ, 1 ≤ j → ∀ S : Finset ℤ, ∑ t ∈ S, (weight wt j 0 (t + 1) - weight wt j 0 t) ^ 2 ≤ C / 2 ^ j

/-- A real array as an array of floats. -/
def asFloats {R : ℕ} (x : List (Fin R → ℝ)) : Arr R := x.map fun (row : Fin R → ℝ) r => Fl.fin (row r)

/-- The value stored at scale `j`, position `k`, realisation `r` is a number (it exists, is not NaN and is not infinite). -/
def MRQ.Reported {R : ℕ} (m : MRQ R) (j k : ℕ) (r : Fin R) : Prop := ∃ t : ℝ, m.val? j k r = some (Fl.fin t)

/-- The number stored at scale `j`, position `k`, realisation `r` (0 if none is reported). -/
def MRQ.number {R : ℕ} (m : MRQ R) (j k : ℕ) (r : Fin R) : ℝ :=
  match m.val? j k r with
  | some (Fl.fin t) => t
  | _ => 0

/-- The covariance of a signal with stationary increments: `A n + A m - G (n - m)`. -/
def StationaryIncrements (Γ : ℕ → ℕ → ℝ) : Prop :=
  ∃ (A : ℕ → ℝ) (G : ℤ → ℝ), ∀ n m : ℕ, Γ n m = A n + A m - G ((n : ℤ) - m)

end

end MFA
