import Verif.Model.MRQ

/-! Specification used by C124: size of the data, spread of the regression weights, error bound. -/

namespace MFA

noncomputable section

/-- A column with at least one number, all of them with a base 2 logarithm between `-Y` and `Y`; the other entries are NaN. -/
def LogCol (c : List Fl) (Y : ℝ) : Prop :=
  (∃ x ∈ c, x ≠ Fl.nan) ∧ ∀ x ∈ c, x = Fl.nan ∨ ∃ t : ℝ, t ≠ 0 ∧ x = Fl.fin t ∧ |Real.logb 2 (|t|)| ≤ Y

/-- Every scale of the quantity has between 1 and `n` rows and, in every realisation, at least one number; the other entries are NaN, and the numbers are
between `2^(-Y)` and `2^Y` in absolute value. -/
def LogData {R : ℕ} (Y : ℝ) (n : ℕ) (m : MRQ R) : Prop :=
  ∀ p ∈ m.values, p.2 ≠ [] ∧ p.2.length ≤ n ∧ ∀ r : Fin R, LogCol (col p.2 r) Y

/-- The weight of scale `j` in the regressions: the number `nj[j]` of usable values, or 1. -/
def scaleWeight {R : ℕ} (m : MRQ R) (weighted : Bool) (j : ℤ) (r : Fin R) : ℝ :=
  if weighted then (match m.nj.get? j with | some n => (n r : ℝ) | none => 0) else 1

/-- No scale of `j1..j2` holds more than `1 - 1/ρ` of the total weight. -/
def Balanced {R : ℕ} (ρ : ℝ) (m : MRQ R) (weighted : Bool) (j1 j2 : ℕ) (r : Fin R) : Prop :=
  ∀ j ∈ Finset.Icc j1 j2, ∑ i ∈ Finset.Icc j1 j2, scaleWeight m weighted i r ≤
    ρ * (∑ i ∈ Finset.Icc j1 j2, scaleWeight m weighted i r - scaleWeight m weighted j r)

/-- What the rounding errors of a computation can change in a slope fitted over the scales `j1..j2`, when every ordinate is the result of `k` roundings of
quantities of size `A`: proportional to `u`, to `A`, and to a polynomial in the number of operations and `j2`. -/
def roundErr (u ρ : ℝ) (j1 j2 : ℕ) (k A : ℝ) : ℝ := 8 * ρ * j2 * (96 * ρ * j2 ^ 2 * (j2 - j1 + 3) + 7 * k) * A * u

end

end MFA
