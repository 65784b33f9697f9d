import Verif.Spec.Close
import Verif.Spec.RoundErr

/-! Specification used by C127: error bounds for all the estimates of one analysis. -/

namespace MFA

noncomputable section

/-- One error bound for each estimate: `zeta(q)`, `H`, `hmin`, the log-cumulant `c_(i+1)`, `h(q)`, `D(q)`. -/
structure ErrBounds where
  zeta : ℝ → ℝ
  H : ℝ
  hmin : ℝ
  cumulant : ℕ → ℝ
  hq : ℝ → ℝ
  Dq : ℝ → ℝ

/-- All the estimates of the two results are numbers and differ by at most the bounds, in realisation `r`; both results hold an estimate for each of the moments
`q` and each of the `n` log-cumulants. -/
def EstimatesWithin {R : ℕ} (E : ErrBounds) (q : List ℝ) (n : ℕ) (r : Fin R) (v v' : MFVar R) : Prop :=
  (∀ (i : ℕ) (e : ℝ), q[i]? = some e → ∃ z z', v.structure_.zeta[i]? = some z ∧ v'.structure_.zeta[i]? = some z' ∧ FlClose (E.zeta e) (z r) (z' r)) ∧
  FlClose E.H (v.structure_.H r) (v'.structure_.H r) ∧
  FlClose E.hmin (v.hmin r) (v'.hmin r) ∧
  (∀ i, i < n → ∃ c c', v.cumulants.log_cumulants[i]? = some c ∧ v'.cumulants.log_cumulants[i]? = some c' ∧ FlClose (E.cumulant i) (c r) (c' r)) ∧
  (∀ (i : ℕ) (e : ℝ), q[i]? = some e → ∃ h h', v.spectrum.hq[i]? = some h ∧ v'.spectrum.hq[i]? = some h' ∧ FlClose (E.hq e) (h r) (h' r)) ∧
  ∀ (i : ℕ) (e : ℝ), q[i]? = some e → ∃ D D', v.spectrum.Dq[i]? = some D ∧ v'.spectrum.Dq[i]? = some D' ∧ FlClose (E.Dq e) (D r) (D' r)

/-- What relative errors of at most `δ` on the values of a quantity, themselves between `2^(-Y)` and `2^Y`, can change in the estimates (C122). -/
def dataErr (weighted : Bool) (j1 j2 : ℕ) (Y δ : ℝ) : ErrBounds where
  zeta e := slopeFactor weighted j1 j2 * (|e| * δ / Real.log 2)
  H := slopeFactor weighted j1 j2 * (δ / Real.log 2)
  hmin := slopeFactor weighted j1 j2 * (δ / Real.log 2)
  cumulant i := slopeFactor weighted j1 j2 * ((i + 1).factorial * 2 ^ i * ((i + 1) * δ * (Y * Real.log 2 + δ) ^ i) / Real.log 2)
  hq e := slopeFactor weighted j1 j2 * (δ / Real.log 2 + (Real.exp (2 * |e| * δ) - 1) * Y)
  Dq e := slopeFactor weighted j1 j2 * (|e| * (2 * δ / Real.log 2 + (Real.exp (2 * |e| * δ) - 1) * Y))

/-- What the rounding errors of the estimators can change, for at most `n` values per scale, between `2^(-Y)` and `2^Y` (C124). -/
def estimatorErr (u ρ : ℝ) (j1 j2 n nc : ℕ) (g Y : ℝ) : ErrBounds where
  zeta e := roundErr u ρ j1 j2 (n + 2) (|e| * Y + 5)
  H := roundErr u ρ j1 j2 (n + 2) (2 * Y + 5) + |g| * u
  hmin := roundErr u ρ j1 j2 1 Y
  cumulant i := 3 * roundErr u ρ j1 j2 ((i + 1) * (n + 2 * nc + 4)) ((i + 1).factorial * 2 ^ i * (Y * Real.log 2) ^ (i + 1))
  hq _ := roundErr u ρ j1 j2 (8 * n + 9) Y
  Dq e := 2 * roundErr u ρ j1 j2 (15 * n + 16) (2 * Real.logb 2 n + 2 * |e| * Y + 5)

/-- The sum of two error bounds. -/
def ErrBounds.add (E F : ErrBounds) : ErrBounds where
  zeta e := E.zeta e + F.zeta e
  H := E.H + F.H
  hmin := E.hmin + F.hmin
  cumulant i := E.cumulant i + F.cumulant i
  hq e := E.hq e + F.hq e
  Dq e := E.Dq e + F.Dq e

/-- The bounds of C127 on the estimates `v'` computed with rounding errors, compared with the exact estimates `v` of the quantity `m`, when the values of `m`
themselves are only known up to errors of at most `η' j` at scale `j`.  They hold for data between `2^(-Y)` and `2^Y`, at most `n` values per scale, errors of at
most `η ≤ 2^(-Y) / 4`, a precision `u` small compared with the inverse of the number of operations, and realisations where no scale holds more than `1 - 1/ρ`
of the weight. -/
def TotalBound {R : ℕ} (u : ℝ) (η' : ℕ → ℝ) (m : MRQ R) (weighted : Bool) (j1 j2 : ℕ) (q : List ℝ) (nc : ℕ) (v v' : MFVar R) : Prop :=
  ∀ (Y η ρ : ℝ) (n : ℕ), LogData Y n m → (∀ p ∈ m.values, η' p.1.toNat ≤ η) → 4 * η * 2 ^ Y ≤ 1 →
    32 * ρ * j2 ^ 2 * (j2 - j1 + 3) * u ≤ 1 → 28 * (n + 1) * u ≤ 1 → nc * (n + 2 * nc + 4) * u ≤ 1 →
    ∀ r : Fin R, Balanced ρ m weighted j1 j2 r →
      EstimatesWithin ((dataErr weighted j1 j2 Y (2 * η * 2 ^ Y)).add (estimatorErr u ρ j1 j2 n nc m.gamint (Y + 1))) q nc r v v'

end

end MFA
