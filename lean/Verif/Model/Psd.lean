import Verif.Model.Wavelet

/-!
# Model of `pymultifracs/psd.py` and `pymultifracs/fractal_analysis.py`

Of the plotting functions (`plot_psd`, `log_plot`, `plot_fractal`) the curves given to matplotlib are modelled, and the exceptions
raised on the way.
-/

namespace MFA

open Classical

noncomputable section

/-- External library: `pywt.Wavelet(name)` (raises on unknown names). -/
abbrev WaveletLookup := String → Except PyErr Wavelet

/-- psd.py:13 `PSD`: one frequency and one row of values (per realisation) per point. -/
structure PSD (R : ℕ) where
  freq : List ℝ
  psd : Arr R

/-- psd.py:261 `np.nanmean(np.square(arr), axis=0)`. -/
def meanSquare {R : ℕ} (a : Arr R) : Row R := red nanmean (mapArr (fun x => x * x) a)

/-- psd.py:230-270 `wavelet_estimation` (`wavelet_analysis` with `j1=1, normalization=1, wt_name='db{n}', gamint=0.5,
weighted=False, p_exp=None`). -/
def waveletEstimation {R : ℕ} (pywt : WaveletLookup) (signal : Arr R) (fs : ℝ) (n_moments : ℕ) (j2 : Option ℝ) :
    Except PyErr (PSD R) :=
  match pywt ("db" ++ toString n_moments) with
  | .error e => .error e
  | .ok wt => match waveletAnalysis signal .none wt 1 j2 (1 / 2) 1 false with
    | .error e => .error e
    | .ok transform =>
      let psd := transform.wt_coefs.values.map fun p => meanSquare p.2             -- psd.py:261-263
      .ok { freq := (List.range psd.length).map fun (i : ℕ) => (3 / 4 * fs) / (2:ℝ) ^ (i + 1)  -- psd.py:267-268
            psd := psd }

/-- External library: `scipy.signal.welch(signal, window='hamming', nperseg, noverlap, nfft, detrend=False,
return_onesided=True, scaling='density', average='mean', fs=2*pi)[1]`, as a function of the arguments that vary.  The signal is
the documented 1-D array (`R = 1`): on 2-D data scipy works along the last axis, so its result does not have this shape; that case
is not modelled. -/
abbrev WelchFn (R : ℕ) := Arr R → (nperseg : ℤ) → (noverlap : ℝ) → (nfft : ℤ) → Except PyErr (Arr R)

/-- psd.py:203-207: `seg_size = n_fft` when None, then `n_fft = seg_size` when smaller: the pair `(n_fft, seg_size)`. -/
def welchSizes (n_fft : ℤ) (seg_size : Option ℤ) : ℤ × ℤ :=
  let seg := seg_size.getD n_fft
  (if n_fft < seg then seg else n_fft, seg)

/-- psd.py:210 `fs * np.linspace(0, 0.5, n_fft // 2 + 1)`; ValueError for a negative number of points. -/
def welchFreq (fs : ℝ) (n_fft : ℤ) : Except PyErr (List ℝ) :=
  if n_fft / 2 + 1 < 0 then .error .valueError
  else .ok ((linspace 0 (1 / 2) (n_fft / 2 + 1).toNat).map fun t => fs * t)

/-- psd.py:176-227 `welch_estimation`. -/
def welchEstimation {R : ℕ} (welch : WelchFn R) (signal : Arr R) (fs : ℝ) (n_fft : ℤ) (seg_size : Option ℤ) :
    Except PyErr (PSD R) :=
  let s := welchSizes n_fft seg_size
  match welchFreq fs s.1 with
  | .error e => .error e
  | .ok freq => match welch signal s.2 ((s.2 : ℝ) / 2) s.1 with                     -- psd.py:213-222
    | .error e => .error e
    | .ok psd => .ok { freq := freq, psd := mapArr (fun x => x * Fl.fin 4) psd }    -- psd.py:224

/-- psd.py:77-78 `log_function[log]`: KeyError on other names. -/
def logFunction (log : String) : Except PyErr (Fl → Fl) :=
  if log = "log2" then .ok Fl.log2 else if log = "log" then .ok Fl.ln else .error .keyError

/-- psd.py:81-96 `_log_psd` for a 1-D frequency vector. -/
def logPsd {R : ℕ} (freq : List ℝ) (psd : Arr R) (log : String) : Except PyErr (List Fl × Arr R) :=
  let kept := (freq.zip psd).filter fun p => p.1 ≠ 0
  match logFunction log with
  | .error e => .error e
  | .ok f => .ok (kept.map fun p => f (Fl.fin p.1), mapArr f (kept.map Prod.snd))

/-- `true` when the float is finite. -/
def Fl.isFinite : Fl → Bool
  | .fin _ => true
  | _ => false

/-- Real value of a finite float (only used after the finiteness check of sklearn). -/
def Fl.toReal : Fl → ℝ
  | .fin r => r
  | _ => 0

/-- External library: `sklearn.linear_model.LinearRegression().fit(x, y)` for one feature; slope of one target.  sklearn
centres and solves a least squares problem; with a constant feature the minimum norm solution is 0. -/
def skSlope (x y : List ℝ) : ℝ :=
  let mx := x.sum / x.length
  let my := y.sum / x.length
  let sxx := (x.map fun t => (t - mx) * (t - mx)).sum
  if sxx = 0 then 0 else (List.zipWith (fun t u => (t - mx) * (u - my)) x y).sum / sxx

/-- External library: intercept of the same fit. -/
def skIntercept (x y : List ℝ) : ℝ := y.sum / x.length - skSlope x y * (x.sum / x.length)

/-- External library: `LinearRegression().fit`: ValueError on empty data and on NaN or infinite values; otherwise the
slope and the intercept of each target. -/
def skFit {R : ℕ} (x : List Fl) (y : Arr R) : Except PyErr ((Fin R → ℝ) × (Fin R → ℝ)) :=
  if x = [] then .error .valueError
  else if (x.all Fl.isFinite) = false ∨ ∃ row ∈ y, ∃ r, (row r).isFinite = false then .error .valueError
  else .ok (fun r => skSlope (x.map Fl.toReal) ((col y r).map Fl.toReal),
            fun r => skIntercept (x.map Fl.toReal) ((col y r).map Fl.toReal))

/-- fractal_analysis.py:100-102 `FractalValues`: `beta` is the slope of the first realisation only, `log_C` has one
entry per realisation. -/
structure FractalValues (R : ℕ) where
  beta : ℝ
  log_C : Fin (R + 1) → ℝ
  freq : List Fl

/-- fractal_analysis.py:105-149 `estimate_beta` for a PSD of shape `(n, nrep)` with `nrep = R + 1 >= 1` (the shape
`wavelet_estimation` returns).  The frequencies are a column of shape `(n, 1)`; when the band contains the frequency 0,
psd.py:88-90 applies a mask of shape `(n, 1)`, which raises IndexError for `nrep >= 2` and otherwise leaves 1-D
frequencies, refused by sklearn with ValueError (the KeyError of an unknown log comes before that). -/
def estimateBeta {R : ℕ} (freq : List ℝ) (psd : Arr (R + 1)) (band : ℝ × ℝ) (log : String) :
    Except PyErr (FractalValues R) :=
  let kept := (freq.zip psd).filter fun p => band.1 ≤ p.1 ∧ p.1 ≤ band.2      -- fractal_analysis.py:129-131
  if freq.length ≠ psd.length then .error .indexError                         -- fractal_analysis.py:131
  else if ∃ p ∈ kept, p.1 = 0 then
    if R ≠ 0 then .error .indexError
    else match logFunction log with
      | .error e => .error e
      | .ok _ => .error .valueError
  else match logPsd (kept.map Prod.fst) (kept.map Prod.snd) log with          -- fractal_analysis.py:139
  | .error e => .error e
  | .ok (lf, lp) => match skFit lf lp with
    | .error e => .error e
    | .ok (coef, inter) => .ok { beta := coef 0, log_C := inter, freq := lf }

/-- fractal_analysis.py:68-97 `fractal_analysis`. -/
def fractalAnalysis {R : ℕ} (pywt : WaveletLookup) (signal : Arr (R + 1)) (fs : ℝ) (n_moments : ℕ) (band : ℝ × ℝ)
    (log : String) : Except PyErr (FractalValues R) :=
  match waveletEstimation pywt signal fs n_moments none with
  | .error e => .error e
  | .ok s => estimateBeta s.freq s.psd band log

/-- psd.py:146-153: one curve of `log_plot`: the points with frequency below `lowpass_freq` (`none`: infinite), zero frequency left
out, both coordinates logged (IndexError from the mask when the numbers of frequencies and of values differ). -/
def logPlotCurve {R : ℕ} (lowpass : Option ℝ) (log : String) (s : PSD R) : Except PyErr (List Fl × Arr R) :=
  if s.freq.length ≠ s.psd.length then .error .indexError
  else
    let kept := (s.freq.zip s.psd).filter fun p => match lowpass with
      | none => True
      | some f => p.1 < f
    logPsd (kept.map Prod.fst) (kept.map Prod.snd) log

/-- psd.py:25-74 `plot_psd`: the curves drawn (Fourier, wavelet). -/
def plotPsd {R : ℕ} (pywt : WaveletLookup) (welch : WelchFn R) (signal : Arr R) (fs : ℝ) (n_fft : ℤ) (seg_size : Option ℤ)
    (n_moments : ℕ) (log : String) : Except PyErr (List (List Fl × Arr R)) :=
  match welchEstimation welch signal fs n_fft seg_size with
  | .error e => .error e
  | .ok fourier => match waveletEstimation pywt signal fs n_moments none with
    | .error e => .error e
    | .ok wave => mapE (logPlotCurve none log) [fourier, wave]

/-- `f'{a:.2f}'` for a numpy array of the given shape: a non-empty format is refused with TypeError unless the array has no
axes. -/
def formatArray (shape : List ℕ) : Except PyErr Unit := if shape = [] then .ok () else .error .typeError

/-- Shape of `FractalValues.beta`: the targets given to sklearn have two axes, so `coef_` has shape `(nrep, 1)` and `coef_[0]` shape
`(1,)` (fractal_analysis.py:147). -/
def betaShape : List ℕ := [1]

/-- fractal_analysis.py:13-65 `plot_fractal`; the legend (line 62) is formatted before anything is drawn. -/
def plotFractal {R : ℕ} (pywt : WaveletLookup) (welch : WelchFn (R + 1)) (signal : Arr (R + 1)) (fs : ℝ) (log : String)
    (band : ℝ × ℝ) (n_moments : ℕ) (n_fft : ℤ) (seg_size : Option ℤ) (lowpass : Option ℝ) :
    Except PyErr (List (List Fl × Arr (R + 1))) :=
  match welchEstimation welch signal fs n_fft seg_size with
  | .error e => .error e
  | .ok fourier => match waveletEstimation pywt signal fs n_moments none with
    | .error e => .error e
    | .ok wave => match estimateBeta wave.freq wave.psd band log with
      | .error e => .error e
      | .ok _ => match formatArray betaShape with
        | .error e => .error e
        | .ok () => mapE (logPlotCurve lowpass log) [fourier, wave]

end

end MFA
