import Verif.Model.MRQ

/-! Vocabulary for multiresolution quantities (no repository code is modelled here). -/

namespace MFA

/-- The scales of `m` are exactly `1, ..., J`, in this order, and `nj` counts the non-NaN entries of each column.
This is what `wavelet_analysis` produces (property C03, C04). -/
def Regular {R : ℕ} (m : MRQ R) (J : ℕ) : Prop :=
  m.values.map Prod.fst = (List.range J).map (fun i : ℕ => (i : ℤ) + 1) ∧
  m.nj = m.values.map (fun p => (p.1, fun r => countNotNaN (col p.2 r)))

/-- The array with every entry multiplied by `c` (python `c * a`). -/
noncomputable def smulArr {R : ℕ} (c : ℝ) (a : Arr R) : Arr R := mapArr (fun x => Fl.fin c * x) a

/-- The quantity with all values at scale `j` multiplied by `a j`. -/
noncomputable def scaleBy {R : ℕ} (a : ℤ → ℝ) (m : MRQ R) : MRQ R :=
  { m with values := m.values.map fun p => (p.1, mapArr (fun x => Fl.fin (a p.1) * x) p.2) }

/-- At each scale and realisation there is at least one non-NaN value, and every non-NaN value is a finite real. -/
def FiniteData {R : ℕ} (m : MRQ R) : Prop :=
  ∀ p ∈ m.values, ∀ r : Fin R, (∃ x ∈ col p.2 r, x ≠ Fl.nan) ∧ ∀ x ∈ col p.2 r, x = Fl.nan ∨ ∃ t : ℝ, x = Fl.fin t

/-- As `FiniteData`, and moreover no value is zero. -/
def NonzeroData {R : ℕ} (m : MRQ R) : Prop :=
  ∀ p ∈ m.values, ∀ r : Fin R,
    (∃ x ∈ col p.2 r, x ≠ Fl.nan) ∧ ∀ x ∈ col p.2 r, x = Fl.nan ∨ ∃ t : ℝ, t ≠ 0 ∧ x = Fl.fin t

/-- As `FiniteData`, and at each scale and realisation at least one value is not zero. -/
def NonvanishingData {R : ℕ} (m : MRQ R) : Prop :=
  FiniteData m ∧ ∀ p ∈ m.values, ∀ r : Fin R, ∃ t : ℝ, t ≠ 0 ∧ Fl.fin t ∈ col p.2 r

end MFA
