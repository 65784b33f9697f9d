import Verif.Props.Psd
import Verif.Props.Signal
import Verif.Props.SignalDemo

/-!
# C82: the curves drawn by `log_plot` and `plot_psd`; `plot_fractal` never returns
-/

namespace MFA

variable {R : ℕ}

/-- C82: what `log_plot` draws for one spectrum: exactly the points with non-zero frequency below `lowpass_freq`, in order, both
coordinates in logarithm (a point of power zero is drawn at `-inf`, a negative frequency at NaN). -/
theorem C82_log_plot {log : String} {L : ℝ → ℝ} (hlog : IsLog log L) (lowpass : Option ℝ) (s : PSD R)
    (hlen : s.freq.length = s.psd.length) :
    ∃ lf lp, logPlotCurve lowpass log s = .ok (lf, lp) ∧ lf.length = lp.length ∧
      lf.zip lp = ((s.freq.zip s.psd).filter fun p => decide (p.1 ≠ 0 ∧ ∀ f, lowpass = some f → p.1 < f)).map
        fun p => (Fl.logOf L (Fl.fin p.1), fun r => Fl.logOf L (p.2 r)) := by
  unfold logPlotCurve
  rw [if_neg (by simpa using hlen)]
  simp only [logPsd, hlog.fn]
  refine ⟨_, _, rfl, by simp [mapArr], ?_⟩
  have hz : ∀ l : List (ℝ × Row R), (l.map Prod.fst).zip (l.map Prod.snd) = l := by
    intro l
    rw [List.zip_map']
    simp
  rw [hz, List.filter_filter]
  unfold mapArr
  rw [List.map_map, List.zip_map']
  refine congrArg (List.map _) (List.filter_congr fun p _ => ?_)
  cases lowpass with
  | none => simp
  | some v =>
    rw [Bool.eq_iff_iff]
    simp

/-- C82: an unknown name of logarithm raises KeyError. -/
theorem C82_unknown_log {log : String} (h2 : log ≠ "log2") (h : log ≠ "log") (lowpass : Option ℝ) (s : PSD R)
    (hlen : s.freq.length = s.psd.length) : logPlotCurve lowpass log s = .error .keyError := by
  unfold logPlotCurve
  rw [if_neg (by simpa using hlen)]
  simp [logPsd, logFunction, h2, h]

/-- C82: `plot_psd` draws two curves, the Welch spectrum and the wavelet spectrum of the same signal, whenever both can be computed
(and Welch returns as many values as there are frequencies). -/
theorem C82_plot_psd {pywt : WaveletLookup} {welch : WelchFn R} {sig : Arr R} {fs : ℝ} {n_fft : ℤ} {seg : Option ℤ} {n : ℕ}
    {log : String} {L : ℝ → ℝ} (hlog : IsLog log L) {f w : PSD R} (hf : welchEstimation welch sig fs n_fft seg = .ok f)
    (hlen : f.freq.length = f.psd.length) (hw : waveletEstimation pywt sig fs n none = .ok w) :
    ∃ c1 c2, plotPsd pywt welch sig fs n_fft seg n log = .ok [c1, c2] ∧ logPlotCurve none log f = .ok c1 ∧
      logPlotCurve none log w = .ok c2 ∧ (0 < fs → c2.1.length = w.freq.length) := by
  have hw' : w.freq.length = w.psd.length := by
    obtain ⟨h1, -⟩ := C55_frequencies hw
    simpa using h1
  obtain ⟨lf, lp, h1, -, -⟩ := C82_log_plot hlog none f hlen
  obtain ⟨lf', lp', h2, hll, hz⟩ := C82_log_plot hlog none w hw'
  refine ⟨_, _, ?_, h1, h2, ?_⟩
  · simp only [plotPsd, hf, hw, mapE, h1, h2]
  · intro hfs
    have := congrArg List.length hz
    rw [List.length_zip, ← hll, min_self, List.length_map] at this
    rw [this, List.filter_eq_self.2]
    · rw [List.length_zip, hw', min_self]
    · intro p hp
      obtain ⟨i, hi, he⟩ := List.mem_iff_getElem.1 (List.of_mem_zip (a := p.1) (b := p.2) hp).1
      have hv := (C55_frequencies hw).2.1 i (hw' ▸ hi)
      rw [List.getElem?_eq_getElem hi, he, Option.some.injEq] at hv
      simp only [reduceCtorEq, false_implies, implies_true, and_true, decide_eq_true_eq]
      rw [hv]
      have : 0 < scale2freq ((i : ℝ) + 1) fs := by unfold scale2freq; positivity
      exact this.ne'

/-- C82: `plot_fractal` never returns: the slope is an array of shape `(1,)` and formatting it in the legend raises TypeError once
both spectra and the fit could be computed. -/
theorem C82_plot_fractal_never_returns (pywt : WaveletLookup) (welch : WelchFn (R + 1)) (sig : Arr (R + 1)) (fs : ℝ)
    (log : String) (band : ℝ × ℝ) (n : ℕ) (n_fft : ℤ) (seg : Option ℤ) (lowpass : Option ℝ) :
    (∃ e, plotFractal pywt welch sig fs log band n n_fft seg lowpass = .error e) ∧
      (∀ f v, welchEstimation welch sig fs n_fft seg = .ok f → fractalAnalysis pywt sig fs n band log = .ok v →
        plotFractal pywt welch sig fs log band n n_fft seg lowpass = .error .typeError) := by
  unfold plotFractal fractalAnalysis
  constructor
  · split
    · exact ⟨_, rfl⟩
    · split
      · exact ⟨_, rfl⟩
      · split
        · exact ⟨_, rfl⟩
        · simp [formatArray, betaShape]
  · intro f v hf hv
    simp only [hf]
    split at hv
    · cases hv
    · simp only [hv, formatArray, betaShape]
      simp

/-- C82: `Signal.plot_fractal` never returns either; when both spectra and the fit succeed it raises TypeError after having stored
the fit in the attribute `fractal`. -/
theorem C82_signal_plot_fractal (E : Ext (R + 1)) (n : ℕ) (band : ℝ × ℝ) (W : WelchParameters) (s : SignalState R) :
    (∃ e, (Signal.plotFractal E n band W s).1 = .error e) ∧
      (∀ p t f u v z, Signal.estimateWaveletPsd E ⟨n, none⟩ s = (.ok p, t) → Signal.estimateWelchPsd E W t = (.ok f, u) →
        Signal.fractalAnalysis E n band u = (.ok v, z) →
        Signal.plotFractal E n band W s = (.error .typeError, z) ∧ z.fractal = some v) := by
  constructor
  · unfold Signal.plotFractal
    rcases Signal.estimateWaveletPsd E ⟨n, none⟩ s with ⟨x, t⟩
    rcases x with e | psd
    · exact ⟨e, rfl⟩
    · simp only
      rcases Signal.estimateWelchPsd E W t with ⟨y, u⟩
      rcases y with e | psd
      · exact ⟨e, rfl⟩
      · simp only
        rcases Signal.fractalAnalysis E n band u with ⟨z, v⟩
        rcases z with e | psd
        · exact ⟨e, rfl⟩
        · exact ⟨.typeError, by simp [formatArray, betaShape]⟩
  · intro p t f u v z h1 h2 h3
    constructor
    · unfold Signal.plotFractal
      simp only [h1, h2, h3]
      simp [formatArray, betaShape]
    · unfold Signal.fractalAnalysis at h3
      split at h3
      · simp at h3
      · split at h3
        · simp at h3
        · simp only [Prod.mk.injEq, Except.ok.injEq] at h3
          rw [← h3.2, ← h3.1]

/-- C82: a spectrum of three points, the zero frequency left out and the power zero drawn at `-inf`. -/
example : logPlotCurve (R := 1) (some 49) "log2" ⟨[0, 1, 4, 50], [fun _ => Fl.fin 3, fun _ => Fl.fin 8, fun _ => Fl.fin 0, fun _ => Fl.fin 1]⟩
    = .ok ([Fl.fin (Real.logb 2 1), Fl.fin (Real.logb 2 4)], [fun _ => Fl.fin (Real.logb 2 8), fun _ => Fl.ninf]) := by
  norm_num [logPlotCurve, logPsd, logFunction, mapArr, Fl.log2, Fl.logOf, List.filter_cons, Fl.zero_def]

/-- C82: 40 samples at 1 Hz, a Welch estimator returning 5 values and the Haar wavelet: `plot_psd` draws both curves. -/
example : ∃ c1 c2, plotPsd demoExt.pywt (fun a _ _ _ => .ok (a.take 5)) demoData 1 8 none 1 "log2" = .ok [c1, c2] := by
  obtain ⟨w, hw⟩ := we_total demoExt.pywt demoData (by norm_num) (by simp [demoData]) 1 1 none
    (wt := { dec_lo := [1, 1], dec_hi := [1, -1] }) (by rw [show ("db" ++ toString 1 : String) = "db1" from rfl]; simp [demoExt])
  obtain ⟨c1, c2, h, -⟩ := C82_plot_psd (welch := fun (a : Arr 1) _ _ _ => .ok (a.take 5)) (n_fft := 8) (seg := none) (log := "log2")
    (.inl ⟨rfl, rfl⟩) (f := ⟨(linspace 0 (1 / 2) 5).map fun t => 1 * t, mapArr (fun x => x * Fl.fin 4) (demoData.take 5)⟩)
    (by simp [welchEstimation, welchSizes, welchFreq]) (by simp [linspace, mapArr, demoData]) hw
  exact ⟨c1, c2, h⟩

end MFA
