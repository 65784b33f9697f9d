import Verif.Model.Wavelet
import Verif.Model.Cumulants
import Verif.Model.Spectrum
import Verif.Model.Estimation

/-!
# Model of `pymultifracs/mfa.py`
-/

namespace MFA

open Classical

noncomputable section

/-- mfa.py:27-28 `MFractalVar` as filled by `mf_analysis`. -/
structure MFVar (R : ℕ) where
  structure_ : StructFn R
  cumulants : Cumulants R
  spectrum : Spectrum R
  hmin : Row R

/-- mfa.py:16 `MFractalData` as returned by `mf_analysis`. -/
structure MFData (R : ℕ) where
  dwt : MFVar R
  lwt : Option (MFVar R)

/-- `q is None -> [2]`, lists converted to arrays (mfa.py:71-75). -/
def normQ : Option QArg → List ℝ
  | none => [2]
  | some (.pylist q) => q.map Expo.val
  | some (.ndarray q) => q

/-- mfa.py:90-97 (and 106-113): the four estimators on one multiresolution quantity. -/
def mfVar {R : ℕ} (m : MRQ R) (j1 j2 : ℤ) (weighted : Bool) (n_cumul : ℕ) (q : List ℝ) :
    Except PyErr (MFVar R) :=
  match StructFn.make m (.ndarray q) j1 j2 weighted with
  | .error e => .error e
  | .ok s => match Cumulants.make m n_cumul j1 j2 weighted with
    | .error e => .error e
    | .ok c => match Spectrum.make m j1 j2 weighted (.ndarray q) with
      | .error e => .error e
      | .ok sp => match estimateHmin m j1 j2 weighted true with
        | .error e => .error e
        | .ok h => .ok { structure_ := s, cumulants := c, spectrum := sp, hmin := h.hmin }

/-- mfa.py:41-119 `mf_analysis`. -/
def mfAnalysis {R : ℕ} (coefs : MRQ R) (leaders : Option (MRQ R)) (j2_eff j1 : ℤ) (weighted : Bool)
    (n_cumul : ℕ) (q : Option QArg) : Except PyErr (MFData R) :=
  match mfVar coefs j1 j2_eff weighted n_cumul (normQ q) with
  | .error e => .error e
  | .ok dwt => match leaders with
    | none => .ok { dwt := dwt, lwt := none }
    | some l => match mfVar l j1 j2_eff weighted n_cumul (normQ q) with
      | .error e => .error e
      | .ok lwt => .ok { dwt := dwt, lwt := some lwt }

/-- mfa.py:122-171 `minimal_mf_analysis`: only `dwt.structure` and `lwt.cumulants` are filled.  `q` is not
converted to an array. `Cumulants.from_dict({'mrq': None, ...})` raises AttributeError. -/
def minimalMfAnalysis {R : ℕ} (coefs : MRQ R) (leaders : Option (MRQ R)) (j2_eff j1 : ℤ) (weighted : Bool)
    (n_cumul : ℕ) (q : Option QArg) : Except PyErr (StructFn R × Cumulants R) :=
  match StructFn.make coefs (q.getD (.pylist [.int 2])) j1 j2_eff weighted with
  | .error e => .error e
  | .ok s => match leaders with
    | none => .error .attributeError
    | some l => match Cumulants.make l n_cumul j1 j2_eff weighted with
      | .error e => .error e
      | .ok c => .ok (s, c)

/-- mfa.py:174-237 `mf_analysis_full` with `minimal=False`. -/
def mfAnalysisFull {R : ℕ} (signal : Arr R) (j1 : ℤ) (j2 : Option ℝ) (normalization gamint : ℝ)
    (weighted : Bool) (wt : Wavelet) (p_exp : PExp) (q : Option QArg) (n_cumul : ℕ) :
    Except PyErr (MFData R) :=
  match waveletAnalysis signal p_exp wt j1 j2 gamint normalization weighted with
  | .error e => .error e
  | .ok w => mfAnalysis w.wt_coefs w.wt_leaders w.j2_eff j1 weighted n_cumul q

/-- mfa.py:174-237 `mf_analysis_full` with `minimal=True`. -/
def mfAnalysisFullMinimal {R : ℕ} (signal : Arr R) (j1 : ℤ) (j2 : Option ℝ) (normalization gamint : ℝ)
    (weighted : Bool) (wt : Wavelet) (p_exp : PExp) (q : Option QArg) (n_cumul : ℕ) :
    Except PyErr (StructFn R × Cumulants R) :=
  match waveletAnalysis signal p_exp wt j1 j2 gamint normalization weighted with
  | .error e => .error e
  | .ok w => minimalMfAnalysis w.wt_coefs w.wt_leaders w.j2_eff j1 weighted n_cumul q

end

end MFA
