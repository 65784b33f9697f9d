import Verif.Spec.Close
import Verif.Model.Bivariate

/-! Specification used by C138: two results of a bivariate analysis that differ by little. -/

namespace MFA

noncomputable section

/-- All the estimates of the two results are numbers that differ by at most `ε`: the `n1 × n2` exponents `zeta(q1, q2)`, the log-cumulants of
orders `(a, b)` with `a, b ≤ n`, and the coherence at every scale. -/
def BiEstimatesClose (ε : ℝ) (n1 n2 n : ℕ) (v v' : MFBiVar 1) : Prop :=
  (∀ i k, i < n1 → k < n2 → ∃ z z', (v.structure_.zeta[i]?.bind fun l => l[k]?) = some z ∧
    (v'.structure_.zeta[i]?.bind fun l => l[k]?) = some z' ∧ FlClose ε z z') ∧
  (∀ a b, a ≤ n → b ≤ n → FlClose ε (v.cumulants.log_cumulants a b) (v'.cumulants.log_cumulants a b)) ∧
  List.Forall₂ (FlClose ε) v.structure_.coherence v'.structure_.coherence

end

end MFA
