import Verif.Model.Psd
import Verif.Model.Mfa

/-!
# Model of `pymultifracs/signal.py`

The class `Signal` as a state machine: a method call maps the state of the object to the returned value (or the exception)
and the new state.  Values of attributes are immutable here: a caller who modifies a returned array or an attribute in
place is not modelled.  All data are 2-D with `R + 1` realisations (a 1-D array behaves as one realisation).
-/

namespace MFA

open Classical

noncomputable section

/-- signal.py:16-22 `WaveletParameters`. -/
structure WaveletParameters where
  j1 : ℤ
  j2 : Option ℝ
  normalization : ℝ
  gamint : ℝ
  weighted : Bool
  wt_name : String
  p_exp : PExp

/-- Python `==` on `p_exp`: numbers are compared by value. -/
def PExp.pyEq : PExp → PExp → Prop
  | .none, .none => True
  | .inf, .inf => True
  | .num a, .num b => a.val = b.val
  | _, _ => False

/-- Python `==` on two `WaveletParameters` (tuples are compared entry by entry; NaN parameters are not modelled). -/
def WaveletParameters.pyEq (a b : WaveletParameters) : Prop :=
  a.j1 = b.j1 ∧ a.j2 = b.j2 ∧ a.normalization = b.normalization ∧ a.gamint = b.gamint ∧ a.weighted = b.weighted ∧
    a.wt_name = b.wt_name ∧ a.p_exp.pyEq b.p_exp

/-- signal.py:27 `WelchParameters`. -/
structure WelchParameters where
  n_fft : ℤ
  seg_size : Option ℤ

/-- signal.py:29 `WTParametersPSD`. -/
structure WTParametersPSD where
  n_moments : ℕ
  j2 : Option ℝ

/-- What the attribute `wt_param` can hold: `estimate_wavelet_psd` stores its own parameters there (signal.py:116). -/
inductive WtParam where
  | wave (p : WaveletParameters)
  | psd (p : WTParametersPSD)

/-- signal.py:9-11 (through psd.py and wavelet.py): the external libraries used by a `Signal`. -/
structure Ext (R : ℕ) where
  pywt : WaveletLookup
  welch : WelchFn R

/-- signal.py:56-108: the attributes of a `Signal` (`mf_param` and `multi_fractal` hold what `mf_analysis` receives and
returns; `fractal_param` is only ever written and is left out). -/
structure SignalState (R : ℕ) where
  data : Option (Arr (R + 1))
  fs : ℝ
  log : String
  wt_psd_param : Option WTParametersPSD
  wt_psd : Option (PSD (R + 1))
  welch_param : Option WelchParameters
  welch_psd : Option (PSD (R + 1))
  fractal : Option (FractalValues R)
  wt_transform : Option (WT (R + 1))
  wt_param : Option WtParam
  mf_param : Option (QArg × ℕ)
  multi_fractal : Option (MFData (R + 1))

/-- signal.py:96-108: `Signal(data, fs, log)`, all other attributes None. -/
def SignalState.new {R : ℕ} (data : Arr (R + 1)) (fs : ℝ) (log : String) : SignalState R :=
  { data := some data, fs := fs, log := log, wt_psd_param := none, wt_psd := none, welch_param := none, welch_psd := none
    fractal := none, wt_transform := none, wt_param := none, mf_param := none, multi_fractal := none }

/-- The module-level `wavelet_analysis(data, **params)`; `data = None` has no shape (AttributeError). -/
def runWavelet {R : ℕ} (pywt : WaveletLookup) (data : Option (Arr (R + 1))) (P : WaveletParameters) :
    Except PyErr (WT (R + 1)) :=
  match data with
  | none => .error .attributeError
  | some d => match pywt P.wt_name with
    | .error e => .error e
    | .ok wt => waveletAnalysis d P.p_exp wt P.j1 P.j2 P.gamint P.normalization P.weighted

/-- The module-level `wavelet_estimation(data, fs, n_moments, j2)`. -/
def runPsd {R : ℕ} (pywt : WaveletLookup) (data : Option (Arr (R + 1))) (fs : ℝ) (P : WTParametersPSD) :
    Except PyErr (PSD (R + 1)) :=
  match data with
  | none => .error .attributeError
  | some d => waveletEstimation pywt d fs P.n_moments P.j2

/-- The module-level `welch_estimation(data, fs, n_fft, seg_size)` (what scipy raises on None is left open). -/
def runWelch {R : ℕ} (welch : WelchFn (R + 1)) (data : Option (Arr (R + 1))) (fs : ℝ) (P : WelchParameters) :
    Except PyErr (PSD (R + 1)) :=
  match data with
  | none => .error .other
  | some d => welchEstimation welch d fs P.n_fft P.seg_size

/-- A method call: the returned value or the exception, and the object afterwards. -/
abbrev Method (R : ℕ) (α : Type) := SignalState R → Except PyErr α × SignalState R

/-- signal.py:110-122 `estimate_wavelet_psd`.  `wt_psd_param` is compared but `wt_param` is assigned. -/
def Signal.estimateWaveletPsd {R : ℕ} (E : Ext (R + 1)) (P : WTParametersPSD) : Method R (PSD (R + 1)) := fun s =>
  if s.wt_psd.isNone ∨ s.wt_psd_param ≠ some P then
    let s := { s with wt_param := some (.psd P) }
    match runPsd E.pywt s.data s.fs P with
    | .error e => (.error e, s)
    | .ok psd => (.ok psd, { s with wt_psd := some psd })
  else match s.wt_psd with
    | some psd => (.ok psd, s)
    | none => (.error .other, s)   -- unreachable

/-- signal.py:124-136 `estimate_welch_psd`. -/
def Signal.estimateWelchPsd {R : ℕ} (E : Ext (R + 1)) (P : WelchParameters) : Method R (PSD (R + 1)) := fun s =>
  if s.welch_psd.isNone ∨ s.welch_param ≠ some P then
    let s := { s with welch_param := some P }
    match runWelch E.welch s.data s.fs P with
    | .error e => (.error e, s)
    | .ok psd => (.ok psd, { s with welch_psd := some psd })
  else match s.welch_psd with
    | some psd => (.ok psd, s)
    | none => (.error .other, s)   -- unreachable

/-- signal.py:163-172 `fractal_analysis`. -/
def Signal.fractalAnalysis {R : ℕ} (E : Ext (R + 1)) (n_moments : ℕ) (band : ℝ × ℝ) : Method R (FractalValues R) := fun s =>
  match Signal.estimateWaveletPsd E ⟨n_moments, none⟩ s with
  | (.error e, s) => (.error e, s)
  | (.ok psd, s) => match estimateBeta psd.freq psd.psd band s.log with
    | .error e => (.error e, s)
    | .ok v => (.ok v, { s with fractal := some v })

/-- signal.py:138-146 `plot_psd`: the curves drawn (Fourier, wavelet). -/
def Signal.plotPsd {R : ℕ} (E : Ext (R + 1)) (W : WelchParameters) (P : WTParametersPSD) :
    Method R (List (List Fl × Arr (R + 1))) := fun s =>
  match Signal.estimateWaveletPsd E P s with
  | (.error e, s) => (.error e, s)
  | (.ok wave, s) => match Signal.estimateWelchPsd E W s with
    | (.error e, s) => (.error e, s)
    | (.ok fourier, s) => (mapE (logPlotCurve none s.log) [fourier, wave], s)

/-- signal.py:148-161 `plot_fractal`: the curves drawn; the legend (line 159) is formatted before. -/
def Signal.plotFractal {R : ℕ} (E : Ext (R + 1)) (n_moments : ℕ) (band : ℝ × ℝ) (W : WelchParameters) :
    Method R (List (List Fl × Arr (R + 1))) := fun s =>
  match Signal.estimateWaveletPsd E ⟨n_moments, none⟩ s with
  | (.error e, s) => (.error e, s)
  | (.ok _, s) => match Signal.estimateWelchPsd E W s with
    | (.error e, s) => (.error e, s)
    | (.ok fourier, s) => match Signal.fractalAnalysis E n_moments band s with
      | (.error e, s) => (.error e, s)
      | (.ok _, s) => match formatArray betaShape with
        | .error e => (.error e, s)
        | .ok () => match s.wt_psd with
          | none => (.error .other, s)   -- unreachable
          | some wave => (mapE (logPlotCurve none s.log) [fourier, wave], s)

/-- `self.wt_param is not None and self.wt_param == new_param` (tuples of different classes have different lengths). -/
def wtParamEq (old : Option WtParam) (new : WaveletParameters) : Prop :=
  match old with
  | some (.wave p) => p.pyEq new
  | _ => False

/-- signal.py:174-195 `_wavelet_analysis`, `wavelet_analysis`: the parameters are stored before the transform is computed.
The returned value can be None (`none`). -/
def Signal.waveletAnalysis {R : ℕ} (E : Ext (R + 1)) (P : WaveletParameters) : Method R (Option (WT (R + 1))) := fun s =>
  if ¬ wtParamEq s.wt_param P then
    let s := { s with wt_param := some (.wave P) }
    match runWavelet E.pywt s.data P with
    | .error e => (.error e, s)
    | .ok w => (.ok (some w), { s with wt_transform := some w })
  else (.ok s.wt_transform, s)

/-- signal.py:220-223 `_check_wt_transform`. -/
def Signal.checkWt {R : ℕ} (s : SignalState R) : Except PyErr (WT (R + 1) × WtParam) :=
  match s.wt_transform, s.wt_param with
  | some w, some p => .ok (w, p)
  | _, _ => .error .attributeError

/-- Attribute access `self.wt_param.j1` (or `.weighted`, `.p_exp`): `WTParametersPSD` has no such field. -/
def WtParam.fields : WtParam → Except PyErr WaveletParameters
  | .wave p => .ok p
  | .psd _ => .error .attributeError

/-- signal.py:259-267 `hmin` (the returned pair is `hmin, intercept`). -/
def Signal.hmin {R : ℕ} : Method R (HMin (R + 1)) := fun s =>
  match Signal.checkWt s with
  | .error e => (.error e, s)
  | .ok (w, p) => match p.fields with
    | .error e => (.error e, s)
    | .ok p => (estimateHmin w.wt_coefs p.j1 w.j2_eff p.weighted true, s)

/-- signal.py:250-257 `hurst`. -/
def Signal.hurst {R : ℕ} : Method R (Row (R + 1) × StructFn (R + 1) × Arr (R + 1)) := fun s =>
  match Signal.checkWt s with
  | .error e => (.error e, s)
  | .ok (w, p) => match p.fields with
    | .error e => (.error e, s)
    | .ok p => (computeHurst w.wt_coefs p.j1 w.j2_eff p.weighted, s)

/-- signal.py:236-243: keyword arguments of a python call: TypeError when a name is not a parameter of the function. -/
def checkKwargs (params given : List String) : Except PyErr Unit :=
  if given.all (fun g => params.contains g) then .ok () else .error .typeError

/-- mfa.py:41-42: the parameters of `mf_analysis`. -/
def mfAnalysisParams : List String := ["wt_coefs", "wt_leaders", "j2_eff", "j1", "weighted", "n_cumul", "q"]

/-- wavelet.py:211-214: the fields of `WaveletTransform`. -/
def waveletTransformFields : List String := ["wt_coefs", "wt_leaders", "j2_eff", "eta_p"]

/-- numpy `a == b` on two vectors (signal.py:44, 48): entrywise with broadcasting of length 1; the python value `False`
(`none`) when the lengths do not agree. -/
def npEq (a b : List ℝ) : Option (List Bool) :=
  if a.length = b.length then some (List.zipWith (fun x y => decide (x = y)) a b)
  else match a, b with
    | [x], b => some (b.map fun y => decide (x = y))
    | a, [y] => some (a.map fun x => decide (x = y))
    | _, _ => none

/-- Python `old == new` on two parameters `q` inside `same_params` (signal.py:38-51).  The test for an array on line 42 looks
at the whole tuple, so that only an old array triggers `.all()` (a plain `False` has no `.all()`: AttributeError); a list
compared with a new array gives an array, whose truth value is an error unless it has at most one entry. -/
def sameQ : QArg → QArg → Except PyErr Bool
  | .ndarray a, .ndarray b => match npEq a b with
    | some l => .ok (l.all id)
    | none => .error .attributeError
  | .ndarray a, .pylist b => match npEq a (b.map Expo.val) with
    | some l => .ok (l.all id)
    | none => .error .attributeError
  | .pylist a, .ndarray b => match npEq (a.map Expo.val) b with
    | some [] => .ok false
    | some [x] => .ok x
    | some _ => .error .valueError
    | none => .ok false
  | .pylist a, .pylist b => .ok (decide (a.map Expo.val = b.map Expo.val))

/-- signal.py:34-53 `same_params`: `None._asdict` raises AttributeError. -/
def sameParams (old : Option (QArg × ℕ)) (new : QArg × ℕ) : Except PyErr Bool :=
  match old with
  | none => .error .attributeError
  | some o => match sameQ o.1 new.1 with
    | .error e => .error e
    | .ok false => .ok false
    | .ok true => .ok (decide (o.2 = new.2))

/-- signal.py:225-248 `mf_analysis`.  `wt_transform._asdict()` contains `eta_p`, which the function `mf_analysis` does not
accept, and neither does it accept `p_exp`; when nothing has to be computed the local variable `multi_fractal` is unbound. -/
def Signal.mfAnalysis {R : ℕ} (q : QArg) (n_cumul : ℕ) (save : Bool) : Method R (MFData (R + 1)) := fun s =>
  match Signal.checkWt s with
  | .error e => (.error e, s)
  | .ok (w, p) =>
    let todo : Except PyErr Bool := if s.multi_fractal.isNone then .ok true
      else match sameParams s.mf_param (q, n_cumul) with
        | .error e => .error e
        | .ok b => .ok !b
    match todo with
    | .error e => (.error e, s)
    | .ok false => (.error .unboundLocalError, s)                                   -- signal.py:248
    | .ok true =>
      let s := { s with mf_param := some (q, n_cumul) }
      match p.fields with                                                           -- signal.py:238-240
      | .error e => (.error e, s)
      | .ok p => match checkKwargs mfAnalysisParams
          (waveletTransformFields ++ ["p_exp", "j1", "weighted", "q", "n_cumul"]) with
        | .error e => (.error e, s)
        | .ok () => match MFA.mfAnalysis w.wt_coefs w.wt_leaders w.j2_eff p.j1 p.weighted n_cumul (some q) with
          | .error e => (.error e, s)
          | .ok d => (.ok d, if save then { s with multi_fractal := some d } else s)

/-- signal.py:269-279 `mf_analysis_full`. -/
def Signal.mfAnalysisFull {R : ℕ} (E : Ext (R + 1)) (P : WaveletParameters) (q : Option QArg) (n_cumul : ℕ) (save : Bool) :
    Method R (MFData (R + 1)) := fun s =>
  match Signal.waveletAnalysis E P s with
  | (.error e, s) => (.error e, s)
  | (.ok _, s) => Signal.mfAnalysis (q.getD (.pylist [.int 2])) n_cumul save s

/-- signal.py:212, `np.min` of two floats, NaN propagates. -/
def Fl.min (a b : Fl) : Fl := -(Fl.max (-a) (-b))

/-- signal.py:212, `psd.min()` over all entries of a non-empty array. -/
def arrMin {R : ℕ} (a : Arr R) : Fl :=
  match a.flatMap List.ofFn with
  | [] => Fl.nan
  | x :: l => l.foldl Fl.min x

/-- signal.py:201-203, `np.intersect1d(a, b, assume_unique=True, return_indices=True)` for two vectors without repetition: the common values in
increasing order with their positions. -/
def intersect1d (a b : List ℝ) : List ℝ := (a.toFinset ∩ b.toFinset).sort (· ≤ ·)

/-- signal.py:206, 208-209: the rows `psd[idx]` of the values at the frequencies `support`. -/
def rowsAt {R : ℕ} (p : PSD R) (support : List ℝ) : Arr R :=
  support.filterMap fun f => p.psd[p.freq.idxOf f]?

/-- signal.py:206, 211: entrywise difference of two arrays of the same shape. -/
def subArr {R : ℕ} (a b : Arr R) : Arr R := List.zipWith (fun x y r => x r - y r) a b

/-- signal.py:197-218 `psd_difference`: the PSD of the returned `Signal(None, fs, log, wt_psd_param, psd)`.  The two
functions in `log` are taken entrywise; frequencies with repetitions (for which `assume_unique` is wrong) are not
modelled (`other`). -/
def Signal.psdDifference {R : ℕ} (self other : SignalState R) (log : Option ((Fl → Fl) × (Fl → Fl))) :
    Except PyErr (SignalState R) :=
  match self.wt_psd, other.wt_psd with
  | some p, some q =>
    if ¬ (p.freq.Nodup ∧ q.freq.Nodup) then .error .other
    else
      let support := intersect1d p.freq q.freq
      let result : Except PyErr (Arr (R + 1)) := match log with
        | none => .ok (subArr (rowsAt p support) (rowsAt q support))
        | some (f, g) =>
          let d := subArr (mapArr f (rowsAt p support)) (mapArr f (rowsAt q support))
          if d = [] then .error .valueError
          else .ok (mapArr (fun x => g (x - arrMin d + Fl.fin (1 / 10))) d)
      match result with
      | .error e => .error e
      | .ok psd => .ok
          { data := none, fs := self.fs, log := self.log, wt_psd_param := self.wt_psd_param
            wt_psd := some { freq := support, psd := psd }, welch_param := none, welch_psd := none, fractal := none
            wt_transform := none, wt_param := none, mf_param := none, multi_fractal := none }
  | _, _ => .error .attributeError

/-- signal.py:110-279: the methods of `Signal` that can change the object, with their arguments. -/
inductive SignalOp where
  | waveletPsd (P : WTParametersPSD)
  | welchPsd (P : WelchParameters)
  | plotPsd (W : WelchParameters) (P : WTParametersPSD)
  | plotFractal (n_moments : ℕ) (band : ℝ × ℝ) (W : WelchParameters)
  | fractal (n_moments : ℕ) (band : ℝ × ℝ)
  | wavelet (P : WaveletParameters)
  | mf (q : QArg) (n_cumul : ℕ) (save : Bool)
  | mfFull (P : WaveletParameters) (q : Option QArg) (n_cumul : ℕ) (save : Bool)
  | hurst
  | hmin

/-- The object after a call; a caller may catch the exception and go on. -/
def SignalOp.run {R : ℕ} (E : Ext (R + 1)) (s : SignalState R) : SignalOp → SignalState R
  | .waveletPsd P => (Signal.estimateWaveletPsd E P s).2
  | .welchPsd P => (Signal.estimateWelchPsd E P s).2
  | .plotPsd W P => (Signal.plotPsd E W P s).2
  | .plotFractal n b W => (Signal.plotFractal E n b W s).2
  | .fractal n b => (Signal.fractalAnalysis E n b s).2
  | .wavelet P => (Signal.waveletAnalysis E P s).2
  | .mf q n save => (Signal.mfAnalysis q n save s).2
  | .mfFull P q n save => (Signal.mfAnalysisFull E P q n save s).2
  | .hurst => (Signal.hurst s).2
  | .hmin => (Signal.hmin s).2

/-- The object after a history of calls. -/
def runOps {R : ℕ} (E : Ext (R + 1)) (s : SignalState R) (ops : List SignalOp) : SignalState R := ops.foldl (SignalOp.run E) s

/-- signal.py:96-98: `data`, `fs` and `log` are ordinary attributes of a dataclass, which a caller may assign between two calls. -/
inductive SignalStep (R : ℕ) where
  | call (op : SignalOp)
  | setData (d : Arr (R + 1))
  | setFs (fs : ℝ)
  | setLog (log : String)

/-- The object after a call or an assignment: an assignment changes the attribute and nothing else. -/
def SignalStep.run {R : ℕ} (E : Ext (R + 1)) (s : SignalState R) : SignalStep R → SignalState R
  | .call op => SignalOp.run E s op
  | .setData d => { s with data := some d }
  | .setFs fs => { s with fs := fs }
  | .setLog log => { s with log := log }

/-- The object after a history of calls and assignments. -/
def runSteps {R : ℕ} (E : Ext (R + 1)) (s : SignalState R) (steps : List (SignalStep R)) : SignalState R :=
  steps.foldl (SignalStep.run E) s

end

end MFA
