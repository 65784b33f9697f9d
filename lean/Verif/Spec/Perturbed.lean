import Verif.Model.Mfa
import Verif.Spec.PowerLaw

/-! Specification used by C131 and C132: corrupted signals, signals with missing samples, and the estimates of positive order. -/

namespace MFA

noncomputable section

/-- The signal `x` to which `e r t` is added at sample `t` of realisation `r`. -/
def perturbed {R : ℕ} (x : List (Fin R → ℝ)) (e : Fin R → ℕ → ℝ) : List (Fin R → ℝ) := x.mapIdx fun t row r => row r + e r t

/-- The recording of `x` with some samples missing (NaN). -/
def withGaps {R : ℕ} (x : List (Fin R → ℝ)) (missing : Fin R → Finset ℕ) : Arr R :=
  x.mapIdx fun t row r => if t ∈ missing r then Fl.nan else Fl.fin (row r)

/-- The estimated `H`, and the `zeta(q)`, `h(q)` and `D(q)` of every `q > 0` of the list, are within `ε` of those of a monofractal signal of
exponent `H`. -/
def PosMonofractalNear {R : ℕ} (v : MFVar R) (q : List ℝ) (H ε : ℝ) (r : Fin R) : Prop :=
  Near (v.structure_.H r) H ε ∧
  ∀ (i : ℕ) (hi : i < q.length), 0 < q[i] →
    (∃ z, v.structure_.zeta[i]? = some z ∧ Near (z r) (q[i] * H) ε) ∧
    ∃ hq Dq, v.spectrum.hq[i]? = some hq ∧ v.spectrum.Dq[i]? = some Dq ∧ Near (hq r) H ε ∧ Near (Dq r) 1 ε

end

end MFA
