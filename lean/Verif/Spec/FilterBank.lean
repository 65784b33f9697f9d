import Verif.Model.Wavelet
import Mathlib.Algebra.BigOperators.Group.Finset.Basic

/-! The ideal dyadic filter bank on bi-infinite real sequences, and the signals the wavelet theorems talk about.  No
repository code is modelled here: this is the specification the wavelet transform is compared with. -/

namespace MFA

open Finset

/-- Filter the bi-infinite sequence `x` with the taps `f` and keep one output out of two.  The filter is centred:
output `k` is the correlation window ending at `2k + 1 + ⌊(L-1)/2⌋`. -/
noncomputable def downFilter (f : List ℝ) (x : ℤ → ℝ) (k : ℤ) : ℝ :=
  ∑ m ∈ range f.length, f.getD m 0 * x (2 * k + 1 + ((f.length - 1) / 2 : ℕ) - m)

/-- Ideal approximation of `x` at level `j`, without any border. -/
noncomputable def idealApprox (lo : List ℝ) (x : ℤ → ℝ) : ℕ → ℤ → ℝ
  | 0 => x
  | j + 1 => downFilter lo (idealApprox lo x j)

/-- Ideal detail of `x` at scale `j ≥ 1`; the library uses the opposite of `pywt`'s high-pass filter. -/
noncomputable def idealDetail (wt : Wavelet) (x : ℤ → ℝ) (j : ℕ) (k : ℤ) : ℝ :=
  - downFilter wt.dec_hi (idealApprox wt.dec_lo x (j - 1)) k

/-- The two filters have the same length, as pywt guarantees, and it is not zero. -/
structure Wavelet.Valid (wt : Wavelet) : Prop where
  same : wt.dec_lo.length = wt.dec_hi.length
  pos : 1 ≤ wt.dec_hi.length

/-- The array of shape `(N, R)` whose column `r` holds `x r 0, ..., x r (N-1)`.  The values of `x r` outside this
range are a bi-infinite extension the library never sees. -/
noncomputable def sampled {R : ℕ} (N : ℕ) (x : Fin R → ℤ → ℝ) : Arr R :=
  (List.range N).map fun (i : ℕ) r => Fl.fin (x r i)

/-- The value stored by a multiresolution quantity at scale `s`, position `k`, realisation `r` (`none`: no such scale or
position). -/
def MRQ.val? {R : ℕ} (m : MRQ R) (s k : ℕ) (r : Fin R) : Option Fl :=
  (m.values.get? (s : ℤ)).bind fun a => (a[k]?).map fun row => row r

/-- The number of usable values stored at scale `s` for realisation `r` (`none`: no such scale). -/
def MRQ.nj? {R : ℕ} (m : MRQ R) (s : ℕ) (r : Fin R) : Option ℕ := (m.nj.get? (s : ℤ)).map fun n => n r

/-- The positions at scale `j` whose filter windows do not touch the borders, for a signal of length `N` and a filter of
length `F`. -/
def interior (N F j : ℕ) : Finset ℕ :=
  (range (N / 2 ^ j)).filter fun k => F ≤ 2 * k + 2 ∧ 2 * k + 1 + F ≤ N / 2 ^ (j - 1)

/-- The filter has `M` vanishing moments. -/
def VanishingMoments (f : List ℝ) (M : ℕ) : Prop :=
  ∀ i < M, ∑ m ∈ range f.length, f.getD m 0 * (m : ℝ) ^ i = 0

end MFA
