import Verif.Model.Psd

/-!
# Specification vocabulary for power spectral densities
-/

namespace MFA

/-- The PSD has the row `row` (one value per realisation) at frequency `f`. -/
def PSD.At {R : ℕ} (p : PSD R) (f : ℝ) (row : Row R) : Prop := ∃ i : ℕ, p.freq[i]? = some f ∧ p.psd[i]? = some row

/-- One row per frequency, no frequency twice. -/
def PSD.WF {R : ℕ} (p : PSD R) : Prop := p.freq.Nodup ∧ p.psd.length = p.freq.length

end MFA
