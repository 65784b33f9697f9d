import Verif.Spec.FilterBank

/-! Specification used by C125: the samples behind a wavelet coefficient, and signals with missing samples. -/

namespace MFA

/-- First sample used by the coefficient at scale `j`, position `k`, for filters of length `F`. -/
def firstSample (F j : ℕ) (k : ℤ) : ℤ := 2 ^ j * k + (2 ^ j - 1) * (2 + ((F - 1) / 2 : ℕ) - F)

/-- Last sample used by the coefficient at scale `j`, position `k`, for filters of length `F`. -/
def lastSample (F j : ℕ) (k : ℤ) : ℤ := 2 ^ j * k + (2 ^ j - 1) * (1 + ((F - 1) / 2 : ℕ))

/-- Sample `t` of the coefficient's window: `firstSample ≤ t ≤ lastSample`, `(2^j - 1)(F - 1) + 1` samples. -/
def Uses (F j : ℕ) (k t : ℤ) : Prop := firstSample F j k ≤ t ∧ t ≤ lastSample F j k

/-- A number, neither NaN nor infinite. -/
def Fl.IsNumber (v : Fl) : Prop := ∃ x : ℝ, v = Fl.fin x

/-- Sample `t` of realisation `r` (NaN outside the recording). -/
def sampleAt {R : ℕ} (sig : Arr R) (r : Fin R) (t : ℤ) : Fl :=
  if 0 ≤ t then (match sig[t.toNat]? with | some row => row r | none => Fl.nan) else Fl.nan

/-- The recording with samples `x r 0, ..., x r (N-1)`, some of which are missing (NaN). -/
noncomputable def gappy {R : ℕ} (N : ℕ) (x : Fin R → ℤ → ℝ) (missing : Fin R → Finset ℤ) : Arr R :=
  (List.range N).map fun (i : ℕ) r => if (i : ℤ) ∈ missing r then Fl.nan else Fl.fin (x r i)

open Classical in
/-- The positions of scale `j` off the border whose window contains none of the missing samples. -/
noncomputable def intact (N F j : ℕ) (missing : Finset ℤ) : Finset ℕ :=
  (interior N F j).filter fun k => ∀ t ∈ missing, ¬ Uses F j k t

end MFA
