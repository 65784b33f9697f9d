import Verif.Model.Mfa

/-! Specification used by C121 and C122: two data sets, or two results, that differ by little. -/

namespace MFA

noncomputable section

/-- Both are numbers (neither NaN nor infinite), and they differ by at most `ε`. -/
def FlClose (ε : ℝ) (a b : Fl) : Prop := ∃ s t : ℝ, a = Fl.fin s ∧ b = Fl.fin t ∧ |s - t| ≤ ε

/-- Both are NaN, or both are numbers that differ by at most `η`. -/
def EntryClose (η : ℝ) (a b : Fl) : Prop := (a = Fl.nan ∧ b = Fl.nan) ∨ FlClose η a b

/-- Both are NaN, or both are numbers and the second is the first multiplied by some `e^θ` with `|θ| ≤ δ`. -/
def EntryRelClose (δ : ℝ) (a b : Fl) : Prop :=
  (a = Fl.nan ∧ b = Fl.nan) ∨ ∃ s θ : ℝ, a = Fl.fin s ∧ b = Fl.fin (s * Real.exp θ) ∧ |θ| ≤ δ

/-- The two quantities have the same scales and `gamint`, arrays of the same lengths, and entries related by `P`. -/
def MRQRelated {R : ℕ} (P : Fl → Fl → Prop) (m m' : MRQ R) : Prop :=
  m'.gamint = m.gamint ∧
  List.Forall₂ (fun a b : ℤ × Arr R => a.1 = b.1 ∧ List.Forall₂ (fun u v : Row R => ∀ r, P (u r) (v r)) a.2 b.2)
    m.values m'.values

/-- By how much the slope fitted over the scales `j1..j2` can change when the ordinates change by 1: the number of scales
with weights, `6 / (j2 - j1)` without. -/
def slopeFactor (weighted : Bool) (j1 j2 : ℕ) : ℝ := if weighted then (j2 - j1 + 1 : ℝ) else 6 / (j2 - j1)

/-- All the estimates of the two results (Hurst exponent, `zeta(q)`, log-cumulants, `h(q)`, `D(q)`, `hmin`) are numbers, and
they differ by at most `ε` in realisation `r`; both results hold one estimate for each of the `nq` moments and `n`
log-cumulants. -/
def EstimatesClose {R : ℕ} (ε : ℝ) (nq n : ℕ) (r : Fin R) (v v' : MFVar R) : Prop :=
  FlClose ε (v.structure_.H r) (v'.structure_.H r) ∧
  FlClose ε (v.hmin r) (v'.hmin r) ∧
  (∀ i, i < nq → ∃ z z', v.structure_.zeta[i]? = some z ∧ v'.structure_.zeta[i]? = some z' ∧ FlClose ε (z r) (z' r)) ∧
  (∀ i, i < n → ∃ c c', v.cumulants.log_cumulants[i]? = some c ∧ v'.cumulants.log_cumulants[i]? = some c' ∧
    FlClose ε (c r) (c' r)) ∧
  (∀ i, i < nq → ∃ h h', v.spectrum.hq[i]? = some h ∧ v'.spectrum.hq[i]? = some h' ∧ FlClose ε (h r) (h' r)) ∧
  ∀ i, i < nq → ∃ D D', v.spectrum.Dq[i]? = some D ∧ v'.spectrum.Dq[i]? = some D' ∧ FlClose ε (D r) (D' r)

/-- The estimates of positive order of the two results (`H`, `hmin`, and `zeta(q)`, `h(q)`, `D(q)` for the `q > 0` of the list) are numbers that
differ by at most `ε` in realisation `r`. -/
def PositiveOrdersClose {R : ℕ} (ε : ℝ) (q : List ℝ) (r : Fin R) (v v' : MFVar R) : Prop :=
  FlClose ε (v.structure_.H r) (v'.structure_.H r) ∧
  FlClose ε (v.hmin r) (v'.hmin r) ∧
  ∀ (i : ℕ) (hi : i < q.length), 0 < q[i] →
    (∃ z z', v.structure_.zeta[i]? = some z ∧ v'.structure_.zeta[i]? = some z' ∧ FlClose ε (z r) (z' r)) ∧
    (∃ h h', v.spectrum.hq[i]? = some h ∧ v'.spectrum.hq[i]? = some h' ∧ FlClose ε (h r) (h' r)) ∧
    ∃ D D', v.spectrum.Dq[i]? = some D ∧ v'.spectrum.Dq[i]? = some D' ∧ FlClose ε (D r) (D' r)

end

end MFA
