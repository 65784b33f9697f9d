import Verif.Model.Bivariate
import Mathlib.Analysis.SpecialFunctions.Complex.Log
import Mathlib.Analysis.SpecialFunctions.Pow.Complex
import Mathlib.Analysis.SpecialFunctions.Pow.Real
import Mathlib.Data.Matrix.Mul

/-!
# Model of `pymultifracs/simul/pzutils.py`, `fbm.py`, `mrw.py`

Finite arithmetic is exact real or complex arithmetic; the simulators never handle NaN on the modelled domain
(`dt > 0`, `L > 0`; other values of these two arguments give `PyErr.other`, "not modelled").  Arrays of shape `(n, R)` are
lists of rows.  `squeeze` of the results for a scalar `shape` is not modelled: `shape` is always `(N, R)` here, and `shape = N`
is `(N, 1)`.

The global random generator of numpy is a stream of standard normal draws, which each call consumes from the front.
-/

namespace MFA

open Classical

noncomputable section

/-- The stream of values that `np.random.randn` will draw. -/
abbrev Rng := ℕ → ℝ

/-- The stream after `n` draws. -/
def Rng.skip (g : Rng) (n : ℕ) : Rng := fun i => g (n + i)

/-- A real array of shape `(n, R)`. -/
abbrev RArr (R : ℕ) := List (Fin R → ℝ)

/-- A complex array of shape `(n, R)`; a real array is one whose entries are real. -/
abbrev CArr (R : ℕ) := List (Fin R → ℂ)

/-- `np.random.randn(n, R)`: row by row. -/
def randn (R n : ℕ) (g : Rng) : RArr R := (List.range n).map fun (i : ℕ) (r : Fin R) => g (i * R + r)

/-- `np.fft.fft(v)[k]`. -/
def dft (v : List ℂ) (k : ℕ) : ℂ :=
  ∑ n ∈ Finset.range v.length, v.getD n 0 * Complex.exp (-(2 * Real.pi * Complex.I * ((k : ℂ) * n) / v.length))

/-- `np.fft.ifft(v)[n]`. -/
def idft (v : List ℂ) (n : ℕ) : ℂ :=
  (∑ k ∈ Finset.range v.length, v.getD k 0 * Complex.exp (2 * Real.pi * Complex.I * ((n : ℂ) * k) / v.length)) / v.length

/-- Column `r` of a complex array. -/
def ccol {R : ℕ} (a : CArr R) (r : Fin R) : List ℂ := a.map fun row => row r

/-- `np.fft.fft(a, axis=0)`: ValueError on an array without rows. -/
def fftRows {R : ℕ} (a : CArr R) : Except PyErr (CArr R) :=
  if a.length = 0 then .error .valueError
  else .ok ((List.range a.length).map fun (k : ℕ) r => dft (ccol a r) k)

/-- `np.fft.ifft(a, axis=0)`: ValueError on an array without rows. -/
def ifftRows {R : ℕ} (a : CArr R) : Except PyErr (CArr R) :=
  if a.length = 0 then .error .valueError
  else .ok ((List.range a.length).map fun (n : ℕ) r => idft (ccol a r) n)

/-- pzutils.py:19: `np.concatenate((cov, np.flip(cov[1:-1])))`. -/
def embed (cov : List ℝ) : List ℝ := cov ++ (pySlice cov 1 (-1)).reverse

/-- pzutils.py:20: `np.fft.fft(cov)` of the embedding. -/
def embedSpectrum (cov : List ℝ) : List ℂ :=
  (List.range (embed cov).length).map fun (k : ℕ) => dft ((embed cov).map Complex.ofReal) k

/-- numpy's complex `sqrt` (principal branch; on the negative real axis rounding decides the sign of the result in python,
`+i` is taken here). -/
def csqrt (z : ℂ) : ℂ := z ^ ((1:ℂ) / 2)

/-- What `gaussian_cme` returns: the samples, whether a warning was emitted, and the remaining random stream. -/
structure Sim (R : ℕ) where
  x : RArr R
  warned : Bool
  rng : Rng

/-- pzutils.py:21-23: `np.any(np.real(L) < 0)`. -/
def cmeWarns (cov : List ℝ) : Bool := decide (∃ l ∈ embedSpectrum cov, l.re < 0)

/-- pzutils.py:25-34: the part of `gaussian_cme` after the noise is known; `N >= 2`. -/
def cmeFrom {R : ℕ} (cov : List ℝ) (N : ℕ) (z : CArr R) : Except PyErr (RArr R) :=
  match bcast .valueError (fun (row : Fin R → ℂ) (l : ℂ) => fun r => row r * csqrt (l / ((2 * N - 2 : ℕ) : ℂ))) z
      (embedSpectrum cov) with
  | .error e => .error e
  | .ok y => match fftRows y with
    | .error e => .error e
    | .ok x => .ok ((x.map fun row r => (row r).re).take N)

/-- pzutils.py:27: `randn(2N-2, R) + 1j * randn(2N-2, R)`. -/
def complexNoise (R N : ℕ) (g : Rng) : CArr R :=
  List.zipWith (fun (a b : Fin R → ℝ) r => (a r : ℂ) + Complex.I * (b r : ℂ)) (randn R (2 * N - 2) g)
    (randn R (2 * N - 2) (g.skip ((2 * N - 2) * R)))

/-- pzutils.py:12-36 `gaussian_cme`.  An empty `cov` is refused by `np.fft.fft`; for `N = 0` the number of draws is negative,
for `N = 1` the transform of an array without rows is asked for (ValueError in all cases).  A supplied `z` with `N <= 1` is not
modelled. -/
def gaussianCme {R : ℕ} (cov : List ℝ) (N : ℕ) (z : Option (CArr R)) (g : Rng) : Except PyErr (Sim R) :=
  if cov = [] then .error .valueError
  else if N ≤ 1 then (match z with | none => .error .valueError | some _ => .error .other)
  else match z with
    | none => match cmeFrom cov N (complexNoise R N g) with
      | .error e => .error e
      | .ok x => .ok { x := x, warned := cmeWarns cov, rng := g.skip (2 * ((2 * N - 2) * R)) }
    | some z => match cmeFrom cov N z with
      | .error e => .error e
      | .ok x => .ok { x := x, warned := cmeWarns cov, rng := g }

/-- `scipy.linalg.toeplitz(cov)` for a real vector: symmetric. -/
def toeplitz (cov : List ℝ) : Matrix (Fin cov.length) (Fin cov.length) ℝ :=
  fun i j => cov.getD (Int.natAbs ((i : ℤ) - (j : ℤ))) 0

/-- What `scipy.linalg.cholesky(A)` (default `lower=False`) returns: the upper triangular `U` with positive diagonal and
`A = Uᵀ U`. -/
structure IsUpperCholesky {n : ℕ} (U A : Matrix (Fin n) (Fin n) ℝ) : Prop where
  upper : ∀ i j, j < i → U i j = 0
  diag : ∀ i, 0 < U i i
  mul : U.transpose * U = A

/-- External library: `scipy.linalg.cholesky(A)`; LinAlgError when there is no such factor. -/
def spCholesky {n : ℕ} (A : Matrix (Fin n) (Fin n) ℝ) : Except PyErr (Matrix (Fin n) (Fin n) ℝ) :=
  if h : ∃ U, IsUpperCholesky U A then .ok h.choose else .error .linAlgError

/-- pzutils.py:39-56 `gaussian_chol`.  Complex noise (complex results) and an empty `cov` (depends on the version of scipy) are
not modelled. -/
def gaussianChol {R : ℕ} (cov : List ℝ) (N : ℕ) (z : Option (CArr R)) (g : Rng) : Except PyErr (Sim R) :=
  let noise : RArr R := match z with
    | none => randn R N g
    | some z => z.map fun row r => (row r).re
  let rng := match z with
    | none => g.skip (N * R)
    | some _ => g
  if cov = [] ∨ ∃ z', z = some z' ∧ ∃ row ∈ z', ∃ r, (row r).im ≠ 0 then .error .other
  else match spCholesky (toeplitz cov) with
  | .error e => .error e
  | .ok U =>
    if noise.length ≠ cov.length then .error .valueError                              -- pzutils.py:55
    else .ok
      { x := List.ofFn fun (i : Fin cov.length) r => ∑ j : Fin cov.length, U i j * (noise.getD j fun _ => 0) r
        warned := false, rng := rng }

/-- fbm.py:48-49: the autocovariance of fractional Gaussian noise at lag `n`. -/
def fgnCov (H sigma dt : ℝ) (n : ℕ) : ℝ :=
  dt ^ (2 * H) * sigma ^ 2 / 2 * (|(n : ℝ) + 1| ^ (2 * H) + |(n : ℝ) - 1| ^ (2 * H) - 2 * |(n : ℝ)| ^ (2 * H))

/-- fbm.py:43-44: `if not dt: dt = 1 / N`; a negative `dt` (complex powers) is not modelled. -/
def fgnDt (dt : Option ℝ) (N : ℕ) : Except PyErr ℝ :=
  if dt = none ∨ dt = some 0 then (if N = 0 then .error .zeroDivisionError else .ok (1 / (N : ℝ)))
  else if dt.getD 0 < 0 then .error .other
  else .ok (dt.getD 0)

/-- fbm.py:11-74 `fgn`.  With `method='cme'` the argument `z0` is not passed on (fbm.py:68). -/
def fgn (R N : ℕ) (H sigma : ℝ) (dt : Option ℝ) (method : String) (z0 : Option (CArr R)) (g : Rng) :
    Except PyErr (Sim R) :=
  if ¬ (0 ≤ H ∧ H ≤ 1) then .error .valueError
  else match fgnDt dt N with
  | .error e => .error e
  | .ok dt =>
    let r := (List.range N).map (fgnCov H sigma dt)
    if method = "cme" then gaussianCme r N none g
    else if method = "chol" then gaussianChol r N z0 g
    else .error .valueError

/-- `np.cumsum(a, axis=0)`. -/
def cumsum {R : ℕ} (a : RArr R) : RArr R :=
  (List.range a.length).map fun (i : ℕ) r => ∑ k ∈ Finset.range (i + 1), (a.getD k fun _ => 0) r

/-- fbm.py:77-78 `fbm`. -/
def fbm (R N : ℕ) (H sigma : ℝ) (dt : Option ℝ) (method : String) (z0 : Option (CArr R)) (g : Rng) :
    Except PyErr (Sim R) :=
  match fgn R N H sigma dt method z0 g with
  | .error e => .error e
  | .ok s => .ok { s with x := cumsum s.x }

/-- mrw.py:167-171: the autocovariance of `w` (`rho` is 1 from `kmax = int(L / dt)` on). -/
def wCov (L lam dt : ℝ) (k : ℕ) : ℝ :=
  lam ^ 2 * Real.log (if (k : ℤ) < pyInt (L / dt) then L / ((k : ℝ) + 1) / dt else 1)

/-- mrw.py:163-177 `gaussian_w`.  The assignment `rho[:kmax] = ...` (mrw.py:170) raises ValueError when `kmax > N` (one value
would be broadcast); an unknown method leaves `w` unbound (mrw.py:177). -/
def gaussianW (R N : ℕ) (L lam dt : ℝ) (method : String) (z0 : Option (CArr R)) (g : Rng) : Except PyErr (Sim R) :=
  if L ≤ 0 ∨ dt ≤ 0 then .error .other
  else if (N : ℤ) < pyInt (L / dt) ∧ pyInt (L / dt) ≠ 1 then .error .valueError
  else
    let cov := (List.range N).map (wCov L lam dt)
    if method = "cme" then gaussianCme cov N z0 g
    else if method = "chol" then gaussianChol cov N z0 g
    else .error .unboundLocalError

/-- mrw.py:64: `np.mean(w, axis=0)`. -/
def meanRow {R : ℕ} (a : RArr R) (r : Fin R) : ℝ := (a.map fun row => row r).sum / a.length

/-- mrw.py:63-64: `w - np.mean(w, axis=0) - r * lam**2 * np.log(L)` with a factor `r`. -/
def adjustMean {R : ℕ} (c lam L : ℝ) (w : RArr R) : RArr R :=
  w.map fun row r => row r - meanRow w r - c * lam ^ 2 * Real.log L

/-- mrw.py:70: `np.cumsum(e * np.exp(w), axis=0)`. -/
def expWalk {R : ℕ} (e w : RArr R) : Except PyErr (RArr R) :=
  match bcast .valueError (fun (a b : Fin R → ℝ) r => a r * Real.exp (b r)) e w with
  | .error e => .error e
  | .ok y => .ok (cumsum y)

/-- mrw.py:14-72 `mrw`; `z0` is the pair `(noise of e, noise of w)`. -/
def mrw (R N : ℕ) (H lam L sigma : ℝ) (method : String) (z0 : Option (CArr R) × Option (CArr R)) (g : Rng) :
    Except PyErr (Sim R) :=
  if ¬ (0 ≤ H ∧ H ≤ 1) then .error .valueError
  else if L > N then .error .valueError
  else match gaussianW R N L lam 1 method z0.2 g with
  | .error e => .error e
  | .ok w => match fgn R N H sigma none method z0.1 w.rng with
    | .error e => .error e
    | .ok e => match expWalk e.x (adjustMean (1 / 2) lam L w.x) with
      | .error e => .error e
      | .ok x => .ok { x := x, warned := w.warned || e.warned, rng := e.rng }

/-- mrw.py:75-108 `mrw_cumul`; `c2 > 0` gives `lam = NaN` (not modelled). -/
def mrwCumul (R N : ℕ) (c1 c2 L sigma : ℝ) (method : String) (z0 : Option (CArr R) × Option (CArr R)) (g : Rng) :
    Except PyErr (Sim R) :=
  if c2 > 0 then .error .other
  else mrw R N (c1 + c2) (Real.sqrt (-c2)) L sigma method z0 g

/-- mrw.py:185-190: `Kbar`, for `N = rows // 2`. -/
def skewKernel (N : ℕ) (K0 alpha beta dt : ℝ) : List ℝ :=
  (List.range (2 * N)).map fun (t : ℕ) => if 1 ≤ t ∧ t ≤ N then K0 / (t : ℝ) ^ alpha / dt ^ beta else 0

/-- mrw.py:180-193 `skewness_convolution` (`dt > 0`, `alpha` a float). -/
def skewnessConvolution {R : ℕ} (e : RArr R) (K0 alpha beta dt : ℝ) : Except PyErr (RArr R) :=
  let N := e.length / 2
  match fftRows ((skewKernel N K0 alpha beta dt).map fun (t : ℝ) (_ : Fin 1) => (t : ℂ)) with
  | .error e => .error e
  | .ok fk => match fftRows (e.map fun (row : Fin R → ℝ) (r : Fin R) => (row r : ℂ)) with
    | .error e => .error e
    | .ok fe => match bcast .valueError (fun (a : Fin 1 → ℂ) (b : Fin R → ℂ) r => a 0 * b r) fk fe with
      | .error e => .error e
      | .ok y => match ifftRows y with
        | .error e => .error e
        | .ok x => .ok ((x.map fun row r => (row r).re).drop N)

/-- mrw.py:196-210 `skewness_convolution_dumb`. -/
def skewnessConvolutionDumb {R : ℕ} (e : RArr R) (K0 alpha beta dt : ℝ) : RArr R :=
  (List.range e.length).map fun (k : ℕ) r =>
    ∑ i ∈ Finset.range k, K0 / ((k : ℝ) - i) ^ alpha / dt ^ beta * (e.getD i fun _ => 0) r

/-- mrw.py:111-160 `skewed_mrw`: the value of the first component (`do_mirror` only adds work after the point where it
raises). -/
def skewedMrw (R N : ℕ) (H lam L K0 alpha sigma dt beta : ℝ) (g : Rng) : Except PyErr (RArr R) :=
  if ¬ (0 ≤ H ∧ H ≤ 1) then .error .valueError
  else if dt = 0 then .error .zeroDivisionError
  else if L / dt > N then .error .valueError
  else match gaussianW R N L lam dt "cme" none g with
  | .error e => .error e
  | .ok w =>
    let w' : RArr R := w.x.map fun row r => row r - meanRow w.x r - 1 * lam ^ 2 * Real.log (L / dt)
    match fgn R (2 * N + 1) H sigma (some dt) "cme" none w.rng with
    | .error e => .error e
    | .ok e => match skewnessConvolution e.x K0 alpha beta dt with
      | .error e => .error e
      | .ok past => match bcast .valueError (fun (a b : Fin R → ℝ) r => a r - b r) w' past with
        | .error e => .error e
        | .ok wt => expWalk (e.x.drop N) wt

end

end MFA
