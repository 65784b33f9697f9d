import Verif.Model.Simul

/-!
# Model of the two-dimensional part of `pymultifracs/simul/mrw.py`: `mrw2D`, `fract_int_2d`

Arrays of shape `(N, N, R)` are functions of three indices; arrays of other shapes are not modelled (`fract_int_2d` builds its
filter from `x.shape[0]` alone).  Arithmetic is exact, as in `Verif.Model.Simul`.
-/

namespace MFA

open Classical

noncomputable section

/-- An array of shape `(N, N, R)`. -/
abbrev Sq (N R : ℕ) (α : Type) := Fin N → Fin N → Fin R → α

/-- `np.fft.fft2(x, axes=(0, 1))`. -/
def fft2 {N R : ℕ} (x : Sq N R ℂ) : Sq N R ℂ := fun k l r =>
  ∑ a : Fin N, ∑ b : Fin N, x a b r * Complex.exp (-(2 * Real.pi * Complex.I * ((k : ℂ) * a + (l : ℂ) * b) / N))

/-- `np.fft.ifft2(y, axes=(0, 1))`. -/
def ifft2 {N R : ℕ} (y : Sq N R ℂ) : Sq N R ℂ := fun a b r =>
  (∑ k : Fin N, ∑ l : Fin N, y k l r * Complex.exp (2 * Real.pi * Complex.I * ((a : ℂ) * k + (b : ℂ) * l) / N)) / (N : ℂ) ^ 2

/-- The index `(i + s) % N`. -/
def addIdx {N : ℕ} (s : ℕ) (i : Fin N) : Fin N := ⟨(i + s) % N, Nat.mod_lt _ (by have := i.isLt; omega)⟩

/-- `np.fft.fftshift(y, axes=(0, 1))`: a roll by `N // 2`, entry `i` of the result is entry `(i - N // 2) % N`. -/
def fftshift {N R : ℕ} (y : Sq N R ℂ) : Sq N R ℂ := fun k l r => y (addIdx (N - N / 2) k) (addIdx (N - N / 2) l) r

/-- `np.fft.ifftshift(y, axes=(0, 1))`: a roll by `-(N // 2)`. -/
def ifftshift {N R : ℕ} (y : Sq N R ℂ) : Sq N R ℂ := fun k l r => y (addIdx (N / 2) k) (addIdx (N / 2) l) r

/-- mrw.py:281-283: `d` before its zeros are replaced. -/
def fractDist (N : ℕ) (i j : Fin N) : ℝ := Real.sqrt (((i : ℝ) - (N : ℝ) / 2) ^ 2 + ((j : ℝ) - (N : ℝ) / 2) ^ 2)

/-- mrw.py:284: the values `d[d != 0]`. -/
def fractNonzero (N : ℕ) : List ℝ :=
  ((List.finRange N).flatMap fun i => (List.finRange N).map fun j => fractDist N i j).filter fun v => decide (v ≠ 0)

/-- mrw.py:274-291 `fract_int_2d`; `np.min` of an empty array raises ValueError. -/
def fractInt2d {N R : ℕ} (x : Sq N R ℝ) (alpha : ℝ) : Except PyErr (Sq N R ℝ) :=
  match (fractNonzero N).min? with
  | none => .error .valueError
  | some mini =>
    let d : Fin N → Fin N → ℝ := fun i j => if fractDist N i j = 0 then mini else fractDist N i j       -- mrw.py:285
    let filt : Fin N → Fin N → ℝ := fun i j => 1 / d i j ^ alpha                                        -- mrw.py:286
    let yhat := fftshift (fft2 fun a b r => (x a b r : ℂ))                                              -- mrw.py:288
    let yhat' : Sq N R ℂ := fun i j r => yhat i j r * (filt i j : ℂ)                                    -- mrw.py:289
    .ok fun a b r => (ifft2 (ifftshift yhat') a b r).re                                                 -- mrw.py:290-291

/-- `np.random.randn(N, N, R)`. -/
def randn3 (N R : ℕ) (g : Rng) : Sq N R ℝ := fun a b r => g ((a * N + b) * R + r)

/-- mrw.py:251: `int(2 * np.ceil(N / 2))`. -/
def evenSize (N : ℕ) : ℕ := 2 * ((N + 1) / 2)

/-- mrw.py:255-258: `corr`, on the grid `np.arange(-N // 2, N // 2)` in both directions (`N` is even here). -/
def corr2d (N : ℕ) (lam L : ℝ) (i j : Fin N) : ℝ :=
  lam ^ 2 * Real.log (max (L / (1 + Real.sqrt (((i : ℝ) - (N / 2 : ℕ)) ^ 2 + ((j : ℝ) - (N / 2 : ℕ)) ^ 2))) 1)

/-- mrw.py:260-263: the real part of `ifft2(z1 * sqrt(fft2(corr)))`, of which `w` is the exponential. -/
def logVol2d (N R : ℕ) (lam L : ℝ) (g : Rng) : Sq N R ℝ :=
  let spec : Sq N 1 ℂ := fft2 fun i j _ => (corr2d N lam L i j : ℂ)
  let re := randn3 N R g
  let im := randn3 N R (g.skip (N * N * R))
  let z1 : Sq N R ℂ := fun a b r => (re a b r : ℂ) + Complex.I * (im a b r : ℂ)
  fun a b r => (ifft2 (fun k l r => z1 k l r * csqrt (spec k l 0)) a b r).re

/-- What `mrw2D` returns, `(BX, X)`, and the remaining random stream. -/
structure Sim2d (N R : ℕ) where
  BX : Sq N R ℝ
  X : Sq N R ℝ
  rng : Rng

/-- mrw.py:213-271 `mrw2D`.  `sigma` is not used.  For an empty grid `np.fft.fft2` raises ValueError. -/
def mrw2D (N R : ℕ) (H lam L _sigma : ℝ) (g : Rng) : Except PyErr (Sim2d (evenSize N) R) :=
  let M := evenSize N
  if M = 0 then .error .valueError
  else
    let v := logVol2d M R lam L g
    let e := randn3 M R (g.skip (2 * (M * M * R)))
    let X : Sq M R ℝ := fun a b r => e a b r * Real.exp (v a b r)                                       -- mrw.py:266
    match fractInt2d X (H + 1) with                                                                     -- mrw.py:269
    | .error err => .error err
    | .ok BX => .ok { BX := BX, X := X, rng := g.skip (3 * (M * M * R)) }

end

end MFA
