import Verif.Model.MRQ

/-!
# Model of `pymultifracs/structurefunction.py`
-/

namespace MFA

open Classical

noncomputable section

/-- The argument `q`: a numpy array or a python list of numbers. -/
inductive QArg where
  | ndarray (q : List ℝ)
  | pylist (q : List Expo)

/-- The exponents one gets by iterating over `q`. -/
def QArg.expos : QArg → List Expo
  | .ndarray q => q.map Expo.real
  | .pylist q => q

/-- structurefunction.py:16-73 `StructureFunction` (`logvalues` has shape (n_q, n_scales, nrep), `zeta` and
`intercept` shape (n_q, nrep)). There is no attribute `values`, and `nj` stays the empty dict. -/
structure StructFn (R : ℕ) where
  formalism : Formalism
  gamint : ℝ
  j : List ℤ
  q : QArg
  j1 : ℤ
  j2 : ℤ
  weighted : Bool
  logvalues : List (Arr R)
  zeta : Arr R
  intercept : Arr R
  H : Row R

/-- structurefunction.py:96: `np.nanmean(fast_power(np.abs(c_j), q), axis=0)`. -/
def sfMean {R : ℕ} (c : Arr R) (q : Expo) : Row R :=
  red nanmean (mapArr (fastPower q) (mapArr Fl.abs c))

/-- structurefunction.py:86-100 `_compute` (iterating over the dict entries is the same as looking up each
key). -/
def sfLogValues {R : ℕ} (m : MRQ R) (q : List Expo) : List (Arr R) :=
  q.map fun e => m.values.map fun p r => (sfMean p.2 e r).log2

/-- Rows of `a` selected by the boolean mask `q == v` for a numpy array `q`. -/
def maskEq {α : Type} (q : List ℝ) (v : ℝ) (a : List α) : List α :=
  ((q.zip a).filter (fun p => p.1 = v)).map Prod.snd

/-- structurefunction.py:125-126 `_get_H`.  For a python list `q`, `self.q == 2` is the scalar `False`, and
`zeta[False]` is empty. -/
def sfGetH {R : ℕ} (q : QArg) (zeta : Arr R) (gamint : ℝ) : Except PyErr (Row R) :=
  match q with
  | .pylist _ => .error .indexError
  | .ndarray q =>
    match maskEq q 2 zeta with
    | [] => .error .indexError
    | z :: _ => .ok fun r => z r / Fl.fin 2 - Fl.fin gamint

/-- structurefunction.py:102-123 `_compute_zeta`: one regression per q. -/
def sfRegressions {R : ℕ} (m : MRQ R) (logvalues : List (Arr R)) (j1 j2 : ℤ) (weighted : Bool) :
    Except PyErr (List (LinReg R)) :=
  match regWeights m.nj j1 j2 weighted with
  | .error e => .error e
  | .ok w => mapE (fun lv => linearRegression (tileScales R j1 j2) (pySlice lv (j1 - 1) j2) w) logvalues

/-- structurefunction.py:75-84: the constructor `StructureFunction(mrq, q, j1, j2, weighted)`. -/
def StructFn.make {R : ℕ} (m : MRQ R) (q : QArg) (j1 j2 : ℤ) (weighted : Bool) :
    Except PyErr (StructFn R) :=
  match m.checkNrep with                                       -- structurefunction.py:79
  | .error e => .error e
  | .ok () =>
    let logvalues := sfLogValues m q.expos
    match sfRegressions m logvalues j1 j2 weighted with
    | .error e => .error e
    | .ok regs =>
      let zeta : Arr R := regs.map LinReg.slope
      match sfGetH q zeta m.gamint with
      | .error e => .error e
      | .ok H => .ok {
          formalism := m.formalism, gamint := m.gamint, j := m.values.keys, q := q
          j1 := j1, j2 := j2, weighted := weighted
          logvalues := logvalues, zeta := zeta, intercept := regs.map LinReg.intercept, H := H }

/-- structurefunction.py:128-134 `get_intercept` (python list `q`: `intercept[False]` has length 0). -/
def StructFn.getIntercept {R : ℕ} (s : StructFn R) : Option (Row R) :=
  match s.q with
  | .pylist _ => none
  | .ndarray q => (maskEq q 2 s.intercept).head?

end

end MFA
