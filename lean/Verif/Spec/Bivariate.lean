import Verif.Spec.Regular
import Verif.Spec.Cumulants
import Verif.Model.Bivariate

/-! Vocabulary for the statements about pairs of multiresolution quantities with one realisation (no repository code is
modelled here). -/

namespace MFA

/-- Two quantities with one realisation that `BiCumulants` and `BiStructureFunction` accept: same kind, same scales
`1 .. J`, same number of entries and of non-NaN entries at each scale. -/
structure Paired (m1 m2 : MRQ 1) (J : ℕ) : Prop where
  reg1 : Regular m1 J
  reg2 : Regular m2 J
  formalism : m1.formalism = m2.formalism
  gamint : m1.gamint = m2.gamint
  nj : m1.nj = m2.nj
  rows : List.Forall₂ (fun p p' => p.2.length = p'.2.length) m1.values m2.values

/-- At each scale the two quantities are NaN at the same places. -/
def SameNaN (m1 m2 : MRQ 1) : Prop :=
  ∀ (k : ℕ) p p', m1.values[k]? = some p → m2.values[k]? = some p' →
    ∀ (i : ℕ) (x y : Row 1), p.2[i]? = some x → p'.2[i]? = some y → (x 0 = Fl.nan ↔ y 0 = Fl.nan)

/-- The pairs of real values at the places where both columns are real numbers. -/
noncomputable def jointVals (c1 c2 : List Fl) : List (ℝ × ℝ) :=
  (c1.zip c2).filterMap fun p => match p with
    | (Fl.fin s, Fl.fin t) => some (s, t)
    | _ => none

/-- The pairs of logarithms of the moduli at the places where both columns are real numbers. -/
noncomputable def jointLogs (c1 c2 : List Fl) : List (ℝ × ℝ) :=
  (jointVals c1 c2).map fun z => (Real.log |z.1|, Real.log |z.2|)

/-- Empirical covariance. -/
noncomputable def cov (zs : List (ℝ × ℝ)) : ℝ :=
  (zs.map fun z => (z.1 - mean (zs.map Prod.fst)) * (z.2 - mean (zs.map Prod.snd))).sum / zs.length

/-- Empirical variance. -/
noncomputable def variance (l : List ℝ) : ℝ := centralMoment l 2

/-- At each scale both quantities have finite values only, besides NaNs, and at least one place where both are real. -/
def JointFinite (m1 m2 : MRQ 1) : Prop :=
  (∀ p ∈ m1.values, ∀ x ∈ p.2, x 0 = Fl.nan ∨ ∃ t : ℝ, x 0 = Fl.fin t) ∧
  (∀ p ∈ m2.values, ∀ x ∈ p.2, x 0 = Fl.nan ∨ ∃ t : ℝ, x 0 = Fl.fin t) ∧
  ∀ (k : ℕ) p p', m1.values[k]? = some p → m2.values[k]? = some p' → jointVals (col p.2 0) (col p'.2 0) ≠ []

/-- No entry is zero. -/
def NoZero (m : MRQ 1) : Prop := ∀ p ∈ m.values, ∀ x ∈ p.2, x 0 ≠ Fl.fin 0

/-- A single row, repeated as many times as the other array has rows; any other array is left as it is. -/
def stretchRow {R : ℕ} (a b : Arr R) : Arr R :=
  match a with
  | [x] => b.map fun _ => x
  | _ => a

/-- The quantity `m` with every single row repeated as many times as `m'` has rows at that scale (the counts `nj` are not changed). -/
def stretched {R : ℕ} (m m' : MRQ R) : MRQ R :=
  { m with values := m.values.map fun p => (p.1, match Dict.get? m'.values p.1 with
      | some b => stretchRow p.2 b
      | none => p.2) }

end MFA
