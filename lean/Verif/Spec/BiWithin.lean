import Verif.Spec.Close
import Verif.Model.Bivariate

/-! Specification used by C139: how much relative errors of the data can move the estimates of a bivariate analysis. -/

namespace MFA

noncomputable section

/-- Both results hold the `n1 × n2` exponents of the lists `q1`, `q2`, the log-cumulants up to order `n` and the same number of coherences, and, with
`F = slopeFactor weighted j1 j2`,

* `zeta(q1, q2)` differs by at most `F (|q1| + |q2|) δ / ln 2`,
* the log-cumulant of orders `(1, 1)` by at most `F δ (2 Y ln 2 + δ) / ln 2`,
* those of orders `(m, 0)` and `(0, m)` by at most `F m! 2^(m-1) m δ (Y ln 2 + δ)^(m-1) / ln 2`,
* the other log-cumulants are the same number in both results,
* and each coherence differs by at most `e^(4 δ) - 1`. -/
def BiWithin (Y δ : ℝ) (weighted : Bool) (j1 j2 : ℕ) (q1 q2 : List ℝ) (n : ℕ) (v v' : MFBiVar 1) : Prop :=
  (∀ (i k : ℕ) (e1 e2 : ℝ), q1[i]? = some e1 → q2[k]? = some e2 → ∃ z z', (v.structure_.zeta[i]?.bind fun l => l[k]?) = some z ∧
    (v'.structure_.zeta[i]?.bind fun l => l[k]?) = some z' ∧ FlClose (slopeFactor weighted j1 j2 * ((|e1| + |e2|) * δ / Real.log 2)) z z') ∧
  FlClose (slopeFactor weighted j1 j2 * (δ * (2 * (Y * Real.log 2) + δ)) / Real.log 2) (v.cumulants.log_cumulants 1 1) (v'.cumulants.log_cumulants 1 1) ∧
  (∀ i, i < n →
    FlClose (slopeFactor weighted j1 j2 * ((i + 1).factorial * 2 ^ i * ((i + 1) * δ * (Y * Real.log 2 + δ) ^ i) / Real.log 2))
      (v.cumulants.log_cumulants (i + 1) 0) (v'.cumulants.log_cumulants (i + 1) 0) ∧
    FlClose (slopeFactor weighted j1 j2 * ((i + 1).factorial * 2 ^ i * ((i + 1) * δ * (Y * Real.log 2 + δ) ^ i) / Real.log 2))
      (v.cumulants.log_cumulants 0 (i + 1)) (v'.cumulants.log_cumulants 0 (i + 1))) ∧
  (∀ a b, a ≤ n → b ≤ n → (a = 0 ∧ b = 0) ∨ (1 ≤ a ∧ 1 ≤ b ∧ ¬ (a = 1 ∧ b = 1)) →
    FlClose 0 (v.cumulants.log_cumulants a b) (v'.cumulants.log_cumulants a b)) ∧
  List.Forall₂ (FlClose (Real.exp (4 * δ) - 1)) v.structure_.coherence v'.structure_.coherence

end

end MFA
