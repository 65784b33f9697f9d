import Verif.Model.NumPy

/-!
# Model of `pymultifracs/utils.py`
-/

namespace MFA

open Classical

noncomputable section

/-- A python number used as exponent: a python `int`, or any other real scalar (python float, numpy scalar).
The distinction matters for `isinstance(exponent, int)` in `fast_power`. -/
inductive Expo where
  | int (n : ℤ)
  | real (r : ℝ)

/-- Numerical value of an exponent. -/
def Expo.val : Expo → ℝ
  | .int n => n
  | .real r => r

/-- utils.py:13-14 `scale2freq` (real-valued scale; integer numpy arrays, for which numpy refuses negative
powers, are not modelled). -/
def scale2freq (scale sfreq : ℝ) : ℝ := (3 / 4) * sfreq * (2:ℝ) ^ (-scale)

/-- utils.py:17-18 `freq2scale` (for `freq / (3 * sfreq) > 0`). -/
def freq2scale (freq sfreq : ℝ) : ℝ := -2 - Real.logb 2 (freq / (3 * sfreq))

/-- utils.py:21-23 `fband2scale`. -/
def fband2scale (fband : ℝ × ℝ) (sfreq : ℝ) : ℤ × ℤ :=
  (⌈freq2scale fband.2 sfreq⌉, ⌊freq2scale fband.1 sfreq⌋)

/-- utils.py:26-60 `fast_power`, on one array entry (all branches act entrywise and depend only on the
exponent). -/
def fastPower (e : Expo) (x : Fl) : Fl :=
  if e.val = 1 then x                                          -- utils.py:31-32
  else if e.val = 2 then x * x                                 -- utils.py:34-36
  else if e.val = 1 / 2 then x.sqrt                            -- utils.py:38-39
  else if e.val = 0 then (if x.isNaN then Fl.nan else x.pow 0) -- utils.py:41-46
  else if e.val = -1 then x.pow (-1)                           -- utils.py:48-49
  else match e with
    | .int n =>
      if 0 < n ∧ n ≤ 10 then                                   -- utils.py:51-58
        (List.range n.toNat).foldl (fun acc _ => acc * x) (Fl.fin 1)
      else x.pow n                                             -- utils.py:60
    | .real r => x.pow r                                       -- utils.py:60

/-- The weights argument `nj` of `linear_regression`.  `np.array([])`, which `get_nj_interv` returns for an
empty range, has shape `(0,)` instead of `(0, nrep)`. -/
inductive Weights (R : ℕ) where
  | flat0
  | mat (a : Arr R)

/-- Outcome of `linear_regression`: slope, intercept and variance of the slope per realisation. -/
structure LinReg (R : ℕ) where
  slope : Row R
  intercept : Row R
  var : Row R

/-- `V_0` (utils.py:93) on one column. -/
def lrV0 (nj : List Fl) : Fl := nj.sum
/-- `V_1` (utils.py:94) on one column. -/
def lrV1 (x nj : List Fl) : Fl := (List.zipWith (· * ·) nj x).sum
/-- `V_2` (utils.py:95) on one column. -/
def lrV2 (x nj : List Fl) : Fl := (List.zipWith (fun n t => n * (t * t)) nj x).sum
/-- `weights_slope` (utils.py:97) on one column. -/
def lrWSlope (x nj : List Fl) : List Fl :=
  List.zipWith (fun n t => n * (lrV0 nj * t - lrV1 x nj)
    / (lrV0 nj * lrV2 x nj - lrV1 x nj * lrV1 x nj)) nj x
/-- `weights_intercept` (utils.py:98) on one column. -/
def lrWInter (x nj : List Fl) : List Fl :=
  List.zipWith (fun n t => n * (lrV2 x nj - lrV1 x nj * t)
    / (lrV0 nj * lrV2 x nj - lrV1 x nj * lrV1 x nj)) nj x
/-- `var_a` (utils.py:103) on one column. -/
def lrVar (x nj : List Fl) : Fl :=
  (List.zipWith (fun n w => (Fl.fin 1 / n) * w * w) nj (lrWSlope x nj)).sum

/-- `np.sum(weights * y, axis=0)` (utils.py:100-101) on one column, with numpy broadcasting of a length-1
operand. -/
def dotB : List Fl → List Fl → Fl
  | [w], y => (y.map (fun t => w * t)).sum
  | w, [y] => (w.map (fun t => t * y)).sum
  | w, y => (List.zipWith (· * ·) w y).sum

/-- utils.py:70-108 `linear_regression`.  Everything is computed column by column (axis 0).  `weights * y`
broadcasts along axis 0 when the number of rows differs (ValueError if neither is 1).  With the flat empty
weights, and an empty `x`, the python call either raises ValueError (nrep >= 2) or yields zero-length results
that the callers cannot store in an array of length nrep (ValueError again); both are represented by
ValueError here. -/
def linearRegression {R : ℕ} (x y : Arr R) (nj : Weights R) : Except PyErr (LinReg R) :=
  match nj with
  | .flat0 => if x.length = 0 then .error .valueError else .error .assertionError  -- utils.py:91
  | .mat nj =>
    if nj.length ≠ x.length then .error .assertionError                             -- utils.py:91
    else if x.length = y.length ∨ x.length = 1 ∨ y.length = 1 then .ok {
            slope := fun r => dotB (lrWSlope (col x r) (col nj r)) (col y r)
            intercept := fun r => dotB (lrWInter (col x r) (col nj r)) (col y r)
            var := fun r => lrVar (col x r) (col nj r) }
    else .error .valueError                                                         -- utils.py:100

/-- `np.linspace(a, b, n)`. -/
def linspace (a b : ℝ) (n : ℕ) : List ℝ :=
  (List.range n).map fun (i : ℕ) => if n = 1 then a else a + (i : ℝ) * ((b - a) / ((n : ℝ) - 1))

/-- `np.unique` on real vectors (sorted, without repetition). -/
def unique (l : List ℝ) : List ℝ := l.toFinset.sort (· ≤ ·)

/-- utils.py:111-138 `build_q_log`.  `np.logspace(a, b, n) = 10 ** linspace(a, b, n)`. -/
def buildQLog (q_min q_max : ℝ) (n : ℕ) : Except PyErr (List ℝ) :=
  if q_min ≤ 0 ∨ q_max ≤ 0 then .error .valueError        -- utils.py:131-132
  else
    let q := (linspace (Real.logb 10 q_min) (Real.logb 10 q_max) n).map fun t => (10:ℝ) ^ t
    let q := q ++ [0, 1, 2]                               -- utils.py:135
    .ok (unique (q ++ q.map (fun t => -t)))               -- utils.py:136 (np.sort is absorbed by np.unique)

/-- utils.py:141-145 `fixednansum` on one slice. -/
def fixedNanSum (l : List Fl) : Fl :=
  if l.all Fl.isNaN then Fl.nan else nansum l

/-- utils.py:148-152 `fixednanmax` on one slice (the RuntimeWarning is silenced). -/
def fixedNanMax (l : List Fl) : Fl := nanmax l

end

end MFA
