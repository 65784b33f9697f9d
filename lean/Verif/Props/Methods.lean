import Verif.Props.SignalAssign
import Verif.Props.PsdPlot

/-!
# C103: the methods `fractal_analysis` and `plot_psd` of a `Signal` agree with the module-level functions
-/

namespace MFA

open Classical

variable {R : ℕ} {E : Ext (R + 1)} {s : SignalState R}

/-- The name of logarithm that the object holds after a history. -/
def currentLog (log : String) : List (SignalStep R) → String
  | [] => log
  | .setLog log' :: l => currentLog log' l
  | _ :: l => currentLog log l

theorem log_steps (l : List (SignalStep R)) : ∀ (s : SignalState R), s.wt_psd_param = none →
    (runSteps E s l).log = currentLog s.log l := by
  induction l with
  | nil => intro s _; rfl
  | cons x l ih =>
    intro s h
    have hr : runSteps E s (x :: l) = runSteps E (SignalStep.run E s x) l := rfl
    rw [hr]
    cases x with
    | call op =>
      have hf := frame_run (E := E) h op
      refine (ih (SignalOp.run E s op) hf.psd_param).trans ?_
      show currentLog (SignalOp.run E s op).log l = currentLog s.log l
      rw [hf.log]
    | setData d => rw [ih]; · rfl
                   · exact h
    | setFs d => rw [ih]; · rfl
                 · exact h
    | setLog d => rw [ih]; · rfl
                  · exact h

/-- **C103**: after any history of calls (raising calls included) and assignments of `data`, `fs`, `log`, the method
`fractal_analysis(n_moments, band)` returns, or raises, exactly what the function `fractal_analysis` does on the current data,
sampling frequency and logarithm; when it returns, the result is also in the attribute `fractal`, and when it raises that attribute is
unchanged. -/
theorem C103_fractal_analysis (E : Ext (R + 1)) (d : Arr (R + 1)) (fs : ℝ) (log : String) (l : List (SignalStep R)) (n : ℕ)
    (band : ℝ × ℝ) :
    let s := runSteps E (SignalState.new d fs log) l
    let result := fractalAnalysis E.pywt (currentData d l) (currentFs fs l) n band (currentLog log l)
    (Signal.fractalAnalysis E n band s).1 = result ∧
    (∀ v, result = .ok v → (Signal.fractalAnalysis E n band s).2.fractal = some v) ∧
    (∀ e, result = .error e → (Signal.fractalAnalysis E n band s).2.fractal = s.fractal) := by
  intro s result
  have h := ainv_history E d fs log l
  have hlog : s.log = currentLog log l := log_steps l (SignalState.new d fs log) rfl
  have hs : runSteps E (SignalState.new d fs log) l = s := rfl
  rw [hs] at h
  clear_value s
  simp only [result]
  unfold Signal.fractalAnalysis fractalAnalysis
  rw [estimateWaveletPsd_fresh _ h.psd_param, h.data, h.fs]
  simp only [runPsd]
  rcases hw : waveletEstimation E.pywt (currentData d l) (currentFs fs l) n none with e | p
  · simp
  · simp only [hlog]
    rcases hb : estimateBeta p.freq p.psd band (currentLog log l) with e | v <;> simp

/-- **C103**: after any history of calls the method `plot_psd` draws exactly the curves of the function `plot_psd`, whenever the
function draws something. -/
theorem C103_plot_psd (E : Ext (R + 1)) (d : Arr (R + 1)) (fs : ℝ) (log : String) (ops : List SignalOp) (n_fft : ℤ)
    (seg : Option ℤ) (n : ℕ) (curves : List (List Fl × Arr (R + 1)))
    (h : plotPsd E.pywt E.welch d fs n_fft seg n log = .ok curves) :
    (Signal.plotPsd E ⟨n_fft, seg⟩ ⟨n, none⟩ (runOps E (SignalState.new d fs log) ops)).1 = .ok curves := by
  unfold plotPsd at h
  rcases hf : welchEstimation E.welch d fs n_fft seg with e | f
  · simp [hf] at h
  rcases hw : waveletEstimation E.pywt d fs n none with e | w
  · simp [hf, hw] at h
  simp only [hf, hw] at h
  have hi : SInv E d fs log (runOps E (SignalState.new d fs log) ops) := (SInv.new E d fs log).runOps ops
  have h1 := C60_psd_recomputed E d fs log ops ⟨n, none⟩
  have h2 := C62_welch_transparent E d fs log (ops ++ [.waveletPsd ⟨n, none⟩]) ⟨n_fft, seg⟩ f hf
  have hi2 := hi.waveletPsd (⟨n, none⟩ : WTParametersPSD)
  have hrun : runOps E (SignalState.new d fs log) (ops ++ [.waveletPsd ⟨n, none⟩]) =
      (Signal.estimateWaveletPsd E ⟨n, none⟩ (runOps E (SignalState.new d fs log) ops)).2 := by
    simp [runOps, SignalOp.run]
  rw [hrun] at h2
  unfold Signal.plotPsd
  rcases hx : Signal.estimateWaveletPsd E ⟨n, none⟩ (runOps E (SignalState.new d fs log) ops) with ⟨x, t⟩
  rw [hx] at h1 h2 hi2
  simp only [runPsd, hw] at h1
  subst h1
  have hi3 := hi2.welchPsd (⟨n_fft, seg⟩ : WelchParameters)
  rcases hy : Signal.estimateWelchPsd E ⟨n_fft, seg⟩ t with ⟨y, u⟩
  simp only [hy] at h2 hi3
  subst h2
  simp only [hy, hi3.hlog]
  exact h

/-- C103: after a failed transform and an earlier Welch estimation, `plot_psd` still draws the two curves of the function. -/
example : ∃ c1 c2, (Signal.plotPsd { demoExt with welch := fun a _ _ _ => .ok (a.take 5) } ⟨8, none⟩ ⟨1, none⟩
    (runOps { demoExt with welch := fun a _ _ _ => .ok (a.take 5) } (SignalState.new demoData 1 "log2")
      [.wavelet demoBad, .welchPsd ⟨6, none⟩])).1 = .ok [c1, c2] := by
  obtain ⟨w, hw⟩ := we_total demoExt.pywt demoData (by norm_num) (by simp [demoData]) 1 1 none
    (wt := { dec_lo := [1, 1], dec_hi := [1, -1] }) (by rw [show ("db" ++ toString 1 : String) = "db1" from rfl]; simp [demoExt])
  obtain ⟨c1, c2, h, -⟩ := C82_plot_psd (welch := fun (a : Arr 1) _ _ _ => .ok (a.take 5)) (n_fft := 8) (seg := none) (log := "log2")
    (.inl ⟨rfl, rfl⟩) (f := ⟨(linspace 0 (1 / 2) 5).map fun t => 1 * t, mapArr (fun x => x * Fl.fin 4) (demoData.take 5)⟩)
    (by simp [welchEstimation, welchSizes, welchFreq]) (by simp [linspace, mapArr, demoData]) hw
  exact ⟨c1, c2, C103_plot_psd { demoExt with welch := fun a _ _ _ => .ok (a.take 5) } demoData 1 "log2" _ 8 none 1 _ h⟩

/-- C103: the logarithm used is the one held by the object, after assignments too: a misspelt name raises KeyError although the object
was created with a valid one (and the other way round the creation with a bad name does no harm). -/
example (band : ℝ × ℝ) :
    (Signal.fractalAnalysis demoExt 1 band (runSteps demoExt (SignalState.new demoData 1 "log2")
      [.call (.wavelet demoBad), .setLog "ln", .call (.welchPsd ⟨9, none⟩)])).1 =
        fractalAnalysis demoExt.pywt demoData 1 1 band "ln" ∧
    (Signal.fractalAnalysis demoExt 1 band (runSteps demoExt (SignalState.new demoData 1 "ln") [.setLog "log"])).1 =
        fractalAnalysis demoExt.pywt demoData 1 1 band "log" :=
  ⟨(C103_fractal_analysis demoExt demoData 1 "log2" _ 1 band).1, (C103_fractal_analysis demoExt demoData 1 "ln" _ 1 band).1⟩

end MFA
