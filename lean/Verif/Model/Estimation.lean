import Verif.Model.StructureFunction

/-!
# Model of `pymultifracs/estimation.py`
-/

namespace MFA

open Classical

noncomputable section

/-- Result of `estimate_hmin`: hmin, intercept, the regressed values `y` (returned on demand) and whether a
warning was emitted. -/
structure HMin (R : ℕ) where
  hmin : Row R
  intercept : Row R
  y : Arr R
  warned : Bool

/-- estimation.py:24-27: `np.nanmax(np.abs(values[j]), axis=0)`; ValueError on an array without rows. -/
def supCoeffs {R : ℕ} (m : MRQ R) (j : ℤ) : Except PyErr (Row R) :=
  match getKey m.values j with
  | .error e => .error e
  | .ok [] => .error .valueError
  | .ok c => .ok (red nanmax (mapArr Fl.abs c))

/-- estimation.py:16-50 `estimate_hmin`.  (With `weighted`, `j2_eff = j1 - 1` and one realisation python returns
zero-length arrays; this is represented by the ValueError of `linearRegression`.) -/
def estimateHmin {R : ℕ} (m : MRQ R) (j1 j2_eff : ℤ) (weighted warn : Bool) : Except PyErr (HMin R) :=
  match getKey m.values 1 with                                        -- estimation.py:22
  | .error e => .error e
  | .ok _ =>
    if j2_eff - j1 + 1 < 0 then .error .valueError                    -- estimation.py:22
    else match mapE (supCoeffs m) (arange j1 (j2_eff + 1)) with       -- estimation.py:24-27
    | .error e => .error e
    | .ok sup =>
      let y := mapArr Fl.log2 sup                                     -- estimation.py:33
      match regWeights m.nj j1 j2_eff weighted with                   -- estimation.py:34-38
      | .error e => .error e
      | .ok w => match linearRegression (tileScales R j1 j2_eff) y w with
        | .error e => .error e
        | .ok g => .ok
            { hmin := g.slope, intercept := g.intercept, y := y
              warned := decide (∃ r, g.slope r = Fl.fin 0) && warn }  -- estimation.py:44 (`0 in hmin`)

/-- The instance attributes of a `StructureFunction` after construction: the dataclass fields of
multiresquantity.py:14-17 and structurefunction.py:65-73 (the InitVar `mrq` is not stored) and the attributes set in
`_compute_zeta`; methods are omitted. There is no `__getattr__` in this class. -/
def StructFn.attrNames : List String :=
  ["formalism", "gamint", "nj", "nrep", "q", "j1", "j2", "weighted", "j", "logvalues", "zeta", "H", "intercept"]

/-- estimation.py:81-96 `compute_hurst`: the StructureFunction is built, then `structure_dwt.values` is read (line
92) before `zeta[0]/2` is returned. -/
def computeHurst {R : ℕ} (m : MRQ R) (j1 j2 : ℤ) (weighted : Bool) :
    Except PyErr (Row R × StructFn R × Arr R) :=
  match StructFn.make m (.ndarray [2]) j1 j2 weighted with
  | .error e => .error e
  | .ok s =>
    if "values" ∈ StructFn.attrNames then
      .ok (fun r => (s.zeta.headD fun _ => Fl.nan) r / Fl.fin 2, s, s.logvalues.headD [])
    else .error .attributeError

/-- The value returned by `estimate_hmin` as a python tuple (estimation.py:47-50). -/
def hminTuple {R : ℕ} (h : HMin R) (return_y : Bool) : List (Arr R) :=
  if return_y then [[h.hmin], [h.intercept], h.y] else [[h.hmin], [h.intercept]]

/-- estimation.py:53-55 `plot_hmin`, up to the tuple unpacking `hmin, intercept, y = estimate_hmin(...)` (called
without `return_y`); the plotting after it is not modelled. -/
def plotHmin {R : ℕ} (m : MRQ R) (j1 j2_eff : ℤ) (weighted warn : Bool) : Except PyErr Unit :=
  match estimateHmin m j1 j2_eff weighted warn with
  | .error e => .error e
  | .ok h => match hminTuple h false with
    | [_, _, _] => .ok ()
    | _ => .error .valueError

end

end MFA
