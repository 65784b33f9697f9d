import Verif.Model.Wavelet

/-! Specification used by C127: size of the wavelet coefficients and leaders of a signal of size 1, and number of roundings behind them. -/

namespace MFA

noncomputable section

/-- The coefficients of scale `j` of a signal with samples between `-1` and `1` are at most this, in absolute value. -/
def coefSize (wt : Wavelet) (g nm : ℝ) (j : ℕ) : ℝ :=
  (2:ℝ) ^ ((j : ℝ) * (1 / 2 - 1 / nm + g)) * ((wt.dec_hi.map fun a => |a|).sum * (wt.dec_lo.map fun a => |a|).sum ^ (j - 1))

/-- The leaders of scale `j` of a signal with samples between `-1` and `1` are at most this: the largest of `coefSize` over the scales `1..j`. -/
def leaderSize (wt : Wavelet) (g nm : ℝ) : ℕ → ℝ
  | 0 => 0
  | j + 1 => max (leaderSize wt g nm j) (coefSize wt g nm (j + 1))

/-- Number of roundings behind a coefficient of scale `j`, for filters of length `F`: one product and `F` additions for each of the `j` filters, and the
computation of the normalisation `2^(j(1/2 - 1/normalization)) * 2^(gamint j)`, where the rounding errors of an exponent `y` count `|y|` times. -/
def coefRoundings (F : ℕ) (nm g : ℝ) (j : ℕ) : ℕ := j * (F + 1) + ⌈6 * (j * (1 / 2 + 1 / |nm|))⌉₊ + ⌈2 * (|g| * j)⌉₊ + 4

/-- What `k` roundings with relative errors of at most `u` can change, relatively: `(1 + u)^k - 1`. -/
def relErr (u : ℝ) (k : ℕ) : ℝ := (1 + u) ^ k - 1

/-- What the rounding errors can change in a coefficient of scale `j` when the samples are between `-A` and `A`. -/
def coefErr (u : ℝ) (wt : Wavelet) (g nm A : ℝ) (j : ℕ) : ℝ := relErr u (coefRoundings wt.dec_hi.length nm g j) * (coefSize wt g nm j * A)

/-- The same for a leader of scale `j`. -/
def leaderErr (u : ℝ) (wt : Wavelet) (g nm A : ℝ) (j : ℕ) : ℝ := relErr u (coefRoundings wt.dec_hi.length nm g j) * (leaderSize wt g nm j * A)

/-- Every sample is NaN or a number between `-A` and `A`. -/
def SamplesIn {R : ℕ} (A : ℝ) (sig : Arr R) : Prop := ∀ row ∈ sig, ∀ r : Fin R, row r = Fl.nan ∨ ∃ x : ℝ, row r = Fl.fin x ∧ |x| ≤ A

/-- The second quantity is the first one up to errors of at most `η j` at scale `j`: same formalism, `gamint`, scales, numbers of values and of usable values, and
NaN at the same places.  The values of the first one at scale `j` are at most `S j`. -/
def ScalesClose {R : ℕ} (η S : ℕ → ℝ) (m m' : MRQ R) : Prop :=
  m'.formalism = m.formalism ∧ m'.gamint = m.gamint ∧ m'.nj = m.nj ∧
  List.Forall₂ (fun a b : ℤ × Arr R => a.1 = b.1 ∧ List.Forall₂ (fun u v : Row R => ∀ r, (u r = Fl.nan ∧ v r = Fl.nan) ∨
    ∃ s t : ℝ, u r = Fl.fin s ∧ v r = Fl.fin t ∧ |s| ≤ S a.1.toNat ∧ |s - t| ≤ η a.1.toNat) a.2 b.2) m.values m'.values

end

end MFA
