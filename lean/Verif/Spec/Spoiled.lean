import Verif.Model.Mfa

/-! Specification used by C133: estimates that carry no information. -/

namespace MFA

noncomputable section

/-- In realisation `r` none of the log-cumulants is a finite number, `zeta(q)` and `D(q)` are not finite for any `q < 0` of the list, nor `h(0)`. -/
def Spoiled {R : ℕ} (v : MFVar R) (q : List ℝ) (n : ℕ) (r : Fin R) : Prop :=
  (∀ i, i < n → ∃ c, v.cumulants.log_cumulants[i]? = some c ∧ ¬ (c r).IsFin) ∧
  ∀ (i : ℕ) (hi : i < q.length),
    (q[i] < 0 → (∃ z, v.structure_.zeta[i]? = some z ∧ ¬ (z r).IsFin) ∧ ∃ Dq, v.spectrum.Dq[i]? = some Dq ∧ ¬ (Dq r).IsFin) ∧
    (q[i] = 0 → ∃ hq, v.spectrum.hq[i]? = some hq ∧ ¬ (hq r).IsFin)

/-- What is added when the single sample `t0` of realisation `r` is changed by `A`. -/
def singleChange {R : ℕ} (r : Fin R) (t0 : ℕ) (A : ℝ) : Fin R → ℕ → ℝ := fun r' t => if r' = r ∧ t = t0 then A else 0

end

end MFA
