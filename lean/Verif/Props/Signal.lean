import Verif.Lemmas.PyEq
import Verif.Props.Mfa

/-! Properties C58-C62: the caches of a `Signal` over arbitrary histories of method calls. -/

namespace MFA

open Classical

variable {R : ℕ}

/-! ### Invariant of the histories -/

/-- What holds after any history of calls on `Signal(d, fs, log)`. -/
structure SInv (E : Ext (R + 1)) (d : Arr (R + 1)) (fs : ℝ) (log : String) (s : SignalState R) : Prop where
  hdata : s.data = some d
  hfs : s.fs = fs
  hlog : s.log = log
  psd_param : s.wt_psd_param = none
  wave : ∀ P, s.wt_param = some (.wave P) → ∀ w, runWavelet E.pywt (some d) P = .ok w → s.wt_transform = some w
  welch : ∀ P, s.welch_param = some P → ∀ w, runWelch E.welch (some d) fs P = .ok w → s.welch_psd = some w
  mfres : s.multi_fractal = none

variable {E : Ext (R + 1)} {d : Arr (R + 1)} {fs : ℝ} {log : String} {s : SignalState R}

theorem SInv.new (E : Ext (R + 1)) (d : Arr (R + 1)) (fs : ℝ) (log : String) :
    SInv E d fs log (SignalState.new d fs log) :=
  ⟨rfl, rfl, rfl, rfl, by intro P h; simp [SignalState.new] at h,
    by intro P h; simp [SignalState.new] at h, rfl⟩

/-- A state whose attributes relevant to the invariant agree. -/
theorem SInv.congr {t : SignalState R} (h : SInv E d fs log s) (h1 : t.data = s.data) (h2 : t.fs = s.fs)
    (h3 : t.log = s.log) (h4 : t.wt_psd_param = s.wt_psd_param) (h5 : t.wt_param = s.wt_param)
    (h6 : t.wt_transform = s.wt_transform) (h7 : t.welch_param = s.welch_param) (h8 : t.welch_psd = s.welch_psd)
    (h9 : t.multi_fractal = s.multi_fractal) : SInv E d fs log t :=
  ⟨h1.trans h.hdata, h2.trans h.hfs, h3.trans h.hlog, h4.trans h.psd_param,
    by rw [h5, h6]; exact h.wave, by rw [h7, h8]; exact h.welch, h9.trans h.mfres⟩

/-- The recomputing branch of `estimate_wavelet_psd`. -/
theorem estimateWaveletPsd_fresh (P : WTParametersPSD) (h : s.wt_psd_param = none) :
    Signal.estimateWaveletPsd E P s = match runPsd E.pywt s.data s.fs P with
      | .error e => (.error e, { s with wt_param := some (.psd P) })
      | .ok psd => (.ok psd, { s with wt_param := some (.psd P), wt_psd := some psd }) := by
  unfold Signal.estimateWaveletPsd
  have : s.wt_psd.isNone = true ∨ s.wt_psd_param ≠ some P := by right; rw [h]; simp
  rw [if_pos this]
  rcases hr : runPsd E.pywt s.data s.fs P with e | p <;> simp only [hr]

theorem SInv.waveletPsd (h : SInv E d fs log s) (P : WTParametersPSD) :
    SInv E d fs log (Signal.estimateWaveletPsd E P s).2 := by
  rw [estimateWaveletPsd_fresh P h.psd_param]
  split
  · exact ⟨h.hdata, h.hfs, h.hlog, h.psd_param, by intro Q hq; simp at hq, h.welch, h.mfres⟩
  · exact ⟨h.hdata, h.hfs, h.hlog, h.psd_param, by intro Q hq; simp at hq, h.welch, h.mfres⟩

theorem SInv.welchPsd (h : SInv E d fs log s) (P : WelchParameters) :
    SInv E d fs log (Signal.estimateWelchPsd E P s).2 := by
  unfold Signal.estimateWelchPsd
  split
  · simp only
    split
    · rename_i e he
      refine ⟨h.hdata, h.hfs, h.hlog, h.psd_param, h.wave, ?_, h.mfres⟩
      intro Q hq w hw
      simp only [Option.some.injEq] at hq
      subst hq
      rw [h.hdata, h.hfs, hw] at he
      cases he
    · rename_i psd he
      refine ⟨h.hdata, h.hfs, h.hlog, h.psd_param, h.wave, ?_, h.mfres⟩
      intro Q hq w hw
      simp only [Option.some.injEq] at hq
      subst hq
      rw [h.hdata, h.hfs, hw] at he
      cases he
      rfl
  · split <;> exact h

theorem SInv.fractal (h : SInv E d fs log s) (n : ℕ) (band : ℝ × ℝ) :
    SInv E d fs log (Signal.fractalAnalysis E n band s).2 := by
  have h1 := h.waveletPsd ⟨n, none⟩
  unfold Signal.fractalAnalysis
  rcases hs : Signal.estimateWaveletPsd E ⟨n, none⟩ s with ⟨x, t⟩
  rw [hs] at h1
  rcases x with e | psd
  · exact h1
  · simp only
    split
    · exact h1
    · exact h1.congr rfl rfl rfl rfl rfl rfl rfl rfl rfl

theorem SInv.plotPsd (h : SInv E d fs log s) (W : WelchParameters) (P : WTParametersPSD) :
    SInv E d fs log (Signal.plotPsd E W P s).2 := by
  have h1 := h.waveletPsd P
  unfold Signal.plotPsd
  rcases hs : Signal.estimateWaveletPsd E P s with ⟨x, t⟩
  rw [hs] at h1
  rcases x with e | psd
  · exact h1
  · have h2 := h1.welchPsd W
    simp only at h2 ⊢
    rcases ht : Signal.estimateWelchPsd E W t with ⟨y, u⟩
    rw [ht] at h2
    rcases y with e | psd <;> exact h2

theorem SInv.plotFractal (h : SInv E d fs log s) (n : ℕ) (band : ℝ × ℝ) (W : WelchParameters) :
    SInv E d fs log (Signal.plotFractal E n band W s).2 := by
  have h1 := h.waveletPsd ⟨n, none⟩
  unfold Signal.plotFractal
  rcases hs : Signal.estimateWaveletPsd E ⟨n, none⟩ s with ⟨x, t⟩
  rw [hs] at h1
  rcases x with e | psd
  · exact h1
  · have h2 := h1.welchPsd W
    simp only at h2 ⊢
    rcases ht : Signal.estimateWelchPsd E W t with ⟨y, u⟩
    rw [ht] at h2
    rcases y with e | psd
    · exact h2
    · have h3 := h2.fractal n band
      simp only at h3 ⊢
      rcases hu : Signal.fractalAnalysis E n band u with ⟨z, v⟩
      rw [hu] at h3
      rcases z with e | psd <;> exact h3

theorem SInv.waveletAnalysis (h : SInv E d fs log s) (P : WaveletParameters) :
    SInv E d fs log (Signal.waveletAnalysis E P s).2 := by
  unfold Signal.waveletAnalysis
  split
  · simp only
    split
    · rename_i e he
      refine ⟨h.hdata, h.hfs, h.hlog, h.psd_param, ?_, h.welch, h.mfres⟩
      intro Q hq w hw
      simp only [Option.some.injEq, WtParam.wave.injEq] at hq
      subst hq
      rw [h.hdata, hw] at he
      cases he
    · rename_i w' he
      refine ⟨h.hdata, h.hfs, h.hlog, h.psd_param, ?_, h.welch, h.mfres⟩
      intro Q hq w hw
      simp only [Option.some.injEq, WtParam.wave.injEq] at hq
      subst hq
      rw [h.hdata, hw] at he
      cases he
      rfl
  · exact h

/-- C61: `Signal.mf_analysis` raises in every state of the object (reachable or not) and for all arguments, in
particular it never stores a result. -/
theorem C61_mf_analysis_never_returns (s : SignalState R) (q : QArg) (n : ℕ) (save : Bool) :
    (∃ e, (Signal.mfAnalysis q n save s).1 = .error e) ∧
    (Signal.mfAnalysis q n save s).2.multi_fractal = s.multi_fractal ∧
    (Signal.mfAnalysis q n save s).2.wt_transform = s.wt_transform := by
  have hk : checkKwargs mfAnalysisParams (waveletTransformFields ++ ["p_exp", "j1", "weighted", "q", "n_cumul"]) =
      .error .typeError := by decide
  unfold Signal.mfAnalysis
  split
  · exact ⟨⟨_, rfl⟩, rfl, rfl⟩
  · simp only
    split
    · exact ⟨⟨_, rfl⟩, rfl, rfl⟩
    · exact ⟨⟨_, rfl⟩, rfl, rfl⟩
    · split
      · exact ⟨⟨_, rfl⟩, rfl, rfl⟩
      · rw [hk]; exact ⟨⟨_, rfl⟩, rfl, rfl⟩

theorem mfAnalysis_state (s : SignalState R) (q : QArg) (n : ℕ) (save : Bool) :
    ∃ m, (Signal.mfAnalysis q n save s).2 = { s with mf_param := m } := by
  have hk : checkKwargs mfAnalysisParams (waveletTransformFields ++ ["p_exp", "j1", "weighted", "q", "n_cumul"]) =
      .error .typeError := by decide
  unfold Signal.mfAnalysis
  split
  · exact ⟨s.mf_param, rfl⟩
  · simp only
    split
    · exact ⟨s.mf_param, rfl⟩
    · exact ⟨s.mf_param, rfl⟩
    · split
      · exact ⟨_, rfl⟩
      · rw [hk]; exact ⟨_, rfl⟩

theorem SInv.mf (h : SInv E d fs log s) (q : QArg) (n : ℕ) (save : Bool) :
    SInv E d fs log (Signal.mfAnalysis q n save s).2 := by
  obtain ⟨m, hm⟩ := mfAnalysis_state s q n save
  rw [hm]
  exact h.congr rfl rfl rfl rfl rfl rfl rfl rfl rfl

theorem SInv.run (h : SInv E d fs log s) (op : SignalOp) : SInv E d fs log (SignalOp.run E s op) := by
  cases op with
  | waveletPsd P => exact h.waveletPsd P
  | welchPsd P => exact h.welchPsd P
  | plotPsd W P => exact h.plotPsd W P
  | plotFractal n b W => exact h.plotFractal n b W
  | fractal n b => exact h.fractal n b
  | wavelet P => exact h.waveletAnalysis P
  | mf q n save => exact h.mf q n save
  | mfFull P q n save =>
    have h1 := h.waveletAnalysis P
    simp only [SignalOp.run, Signal.mfAnalysisFull]
    rcases hs : Signal.waveletAnalysis E P s with ⟨x, t⟩
    rw [hs] at h1
    rcases x with e | w
    · exact h1
    · exact h1.mf _ n save
  | hurst =>
    have : (Signal.hurst s).2 = s := by
      unfold Signal.hurst
      split
      · rfl
      · split <;> rfl
    simp only [SignalOp.run]
    rw [this]; exact h
  | hmin =>
    have : (Signal.hmin s).2 = s := by
      unfold Signal.hmin
      split
      · rfl
      · split <;> rfl
    simp only [SignalOp.run]
    rw [this]; exact h

theorem SInv.runOps (h : SInv E d fs log s) (ops : List SignalOp) : SInv E d fs log (runOps E s ops) := by
  induction ops generalizing s with
  | nil => exact h
  | cons op ops ih => exact ih (h.run op)

/-! ### C58, C59 -/

/-- C58: after ANY history of method calls on `Signal(d, fs, log)`, raising calls included, `Signal.wavelet_analysis(P)`
returns what the function `wavelet_analysis(d, P)` returns, whenever the latter returns; and the object still holds the
same data. -/
theorem C58_cache_transparent (E : Ext (R + 1)) (d : Arr (R + 1)) (fs : ℝ) (log : String) (ops : List SignalOp)
    (P : WaveletParameters) (w : WT (R + 1)) (hw : runWavelet E.pywt (some d) P = .ok w) :
    let s := runOps E (SignalState.new d fs log) ops
    (Signal.waveletAnalysis E P s).1 = .ok (some w) ∧
    (Signal.waveletAnalysis E P s).2.wt_transform = some w ∧
    s.data = some d ∧ s.fs = fs ∧ s.log = log := by
  intro s
  have h : SInv E d fs log s := (SInv.new E d fs log).runOps ops
  refine ⟨?_, ?_, h.hdata, h.hfs, h.hlog⟩
  all_goals
    unfold Signal.waveletAnalysis
    split
    · simp only [h.hdata, hw]
    · rename_i hq
      rw [not_not] at hq
      unfold wtParamEq at hq
      split at hq
      · rename_i p hp
        rw [← runWavelet_pyEq hq] at hw
        simp only [h.wave _ hp w hw]
      · exact hq.elim

/-- C59: where the function `wavelet_analysis(d, P)` raises, `Signal.wavelet_analysis(P)` raises the same exception the
first time, and from then on returns, without any exception and without changing the object, the transform computed
for the earlier parameters (or None when there is none). -/
theorem C59_stale_after_failure (s : SignalState R) (P : WaveletParameters) (e : PyErr)
    (he : runWavelet E.pywt s.data P = .error e) (hne : ∀ Q, s.wt_param = some (.wave Q) → ¬ Q.pyEq P) :
    let s₁ := (Signal.waveletAnalysis E P s).2
    (Signal.waveletAnalysis E P s).1 = .error e ∧
    Signal.waveletAnalysis E P s₁ = (.ok s.wt_transform, s₁) := by
  have h0 : ¬ wtParamEq s.wt_param P := by
    unfold wtParamEq
    split
    · rename_i p hp; exact hne p hp
    · exact id
  have h1 : Signal.waveletAnalysis E P s = (.error e, { s with wt_param := some (.wave P) }) := by
    unfold Signal.waveletAnalysis
    rw [if_pos h0]
    simp only [he]
  intro s₁
  have hs₁ : s₁ = { s with wt_param := some (.wave P) } := congrArg Prod.snd h1
  refine ⟨congrArg Prod.fst h1, ?_⟩
  unfold Signal.waveletAnalysis
  rw [hs₁]
  have h2 : wtParamEq (some (.wave P)) P := P.pyEq_refl
  rw [if_neg (not_not.2 h2)]

/-- C59, complete case distinction in any history: the call raises exactly when the function raises on these parameters and
they differ (python `!=`) from the ones stored by the last call. -/
theorem C59_raises_iff (s : SignalState R) (P : WaveletParameters) (e : PyErr) :
    (Signal.waveletAnalysis E P s).1 = .error e ↔
      runWavelet E.pywt s.data P = .error e ∧ ¬ ∃ Q, s.wt_param = some (.wave Q) ∧ Q.pyEq P := by
  have hq : wtParamEq s.wt_param P ↔ ∃ Q, s.wt_param = some (.wave Q) ∧ Q.pyEq P := by
    unfold wtParamEq
    split
    · rename_i p hp
      constructor
      · intro h; exact ⟨p, hp, h⟩
      · rintro ⟨Q, h1, h2⟩
        rw [hp] at h1
        cases h1
        exact h2
    · rename_i hp
      constructor
      · exact False.elim
      · rintro ⟨Q, h1, h2⟩
        exact hp Q h1
  rw [← hq]
  unfold Signal.waveletAnalysis
  split
  · rename_i h
    simp only [h, not_false_eq_true, and_true]
    rcases hr : runWavelet E.pywt s.data P with e' | w <;> simp
  · rename_i h
    simp only [h, and_false, iff_false]
    simp

/-! ### C60 -/

/-- The methods that estimate a wavelet PSD. -/
def SignalOp.usesPsd : SignalOp → Prop
  | .waveletPsd _ | .plotPsd _ _ | .plotFractal _ _ _ | .fractal _ _ => True
  | _ => False

/-- The methods that compute a wavelet transform. -/
def SignalOp.usesWavelet : SignalOp → Prop
  | .wavelet _ | .mfFull _ _ _ _ => True
  | _ => False

/-- C60: in any history the wavelet PSD returned is the one of the data for the given parameters (it is recomputed, never
stale), exceptions included. -/
theorem C60_psd_recomputed (E : Ext (R + 1)) (d : Arr (R + 1)) (fs : ℝ) (log : String) (ops : List SignalOp)
    (P : WTParametersPSD) :
    (Signal.estimateWaveletPsd E P (runOps E (SignalState.new d fs log) ops)).1 = runPsd E.pywt (some d) fs P := by
  have h : SInv E d fs log (runOps E (SignalState.new d fs log) ops) := (SInv.new E d fs log).runOps ops
  rw [estimateWaveletPsd_fresh P h.psd_param, h.hdata, h.hfs]
  rcases runPsd E.pywt (some d) fs P with e | p <;> rfl

theorem waveletPsd_param (P : WTParametersPSD) (h : s.wt_psd_param = none) :
    (Signal.estimateWaveletPsd E P s).2.wt_param = some (.psd P) := by
  rw [estimateWaveletPsd_fresh P h]
  split <;> rfl

theorem welchPsd_param (P : WelchParameters) :
    (Signal.estimateWelchPsd E P s).2.wt_param = s.wt_param ∧
    (Signal.estimateWelchPsd E P s).2.wt_transform = s.wt_transform := by
  unfold Signal.estimateWelchPsd
  split
  · simp only; split <;> exact ⟨rfl, rfl⟩
  · split <;> exact ⟨rfl, rfl⟩

theorem fractal_param (n : ℕ) (band : ℝ × ℝ) (h : s.wt_psd_param = none) :
    (Signal.fractalAnalysis E n band s).2.wt_param = some (.psd ⟨n, none⟩) := by
  have h1 := waveletPsd_param (E := E) ⟨n, none⟩ h
  unfold Signal.fractalAnalysis
  rcases hs : Signal.estimateWaveletPsd E ⟨n, none⟩ s with ⟨x, t⟩
  rw [hs] at h1
  rcases x with e | psd
  · exact h1
  · simp only
    split <;> exact h1

theorem plotPsd_param (W : WelchParameters) (P : WTParametersPSD) (h : s.wt_psd_param = none) :
    (Signal.plotPsd E W P s).2.wt_param = some (.psd P) := by
  have h1 := waveletPsd_param (E := E) P h
  unfold Signal.plotPsd
  rcases hs : Signal.estimateWaveletPsd E P s with ⟨x, t⟩
  rw [hs] at h1
  rcases x with e | psd
  · exact h1
  · have h2 := (welchPsd_param (E := E) (s := t) W).1.trans h1
    simp only at h2 ⊢
    rcases ht : Signal.estimateWelchPsd E W t with ⟨y, u⟩
    rw [ht] at h2
    rcases y with e | psd <;> exact h2

theorem plotFractal_param (hi : SInv E d fs log s) (n : ℕ) (band : ℝ × ℝ) (W : WelchParameters) :
    (Signal.plotFractal E n band W s).2.wt_param = some (.psd ⟨n, none⟩) := by
  have i1 := hi.waveletPsd ⟨n, none⟩
  have h1 := waveletPsd_param (E := E) ⟨n, none⟩ hi.psd_param
  unfold Signal.plotFractal
  rcases hs : Signal.estimateWaveletPsd E ⟨n, none⟩ s with ⟨x, t⟩
  rw [hs] at h1 i1
  rcases x with e | psd
  · exact h1
  · have h2 := (welchPsd_param (E := E) (s := t) W).1.trans h1
    have i2 := i1.welchPsd W
    simp only at h2 i2 ⊢
    rcases ht : Signal.estimateWelchPsd E W t with ⟨y, u⟩
    rw [ht] at h2 i2
    rcases y with e | psd
    · exact h2
    · have h3 := fractal_param (E := E) n band i2.psd_param
      simp only at h3 ⊢
      rcases hu : Signal.fractalAnalysis E n band u with ⟨z, v⟩
      rw [hu] at h3
      rcases z with e | psd <;> exact h3

theorem hurst_state (s : SignalState R) : (Signal.hurst s).2 = s := by
  unfold Signal.hurst
  split
  · rfl
  · split <;> rfl

theorem hmin_state (s : SignalState R) : (Signal.hmin s).2 = s := by
  unfold Signal.hmin
  split
  · rfl
  · split <;> rfl

/-- A method that estimates a PSD leaves PSD parameters in `wt_param`. -/
theorem usesPsd_param (hi : SInv E d fs log s) (op : SignalOp) (h : op.usesPsd) :
    ∃ P, (SignalOp.run E s op).wt_param = some (.psd P) := by
  cases op with
  | waveletPsd P => exact ⟨_, waveletPsd_param P hi.psd_param⟩
  | plotPsd W P => exact ⟨_, plotPsd_param W P hi.psd_param⟩
  | plotFractal n b W => exact ⟨_, plotFractal_param hi n b W⟩
  | fractal n b => exact ⟨_, fractal_param n b hi.psd_param⟩
  | _ => exact h.elim

/-- The other methods leave `wt_param` and the transform alone, except those that compute a transform. -/
theorem other_param (op : SignalOp) (h : ¬ op.usesPsd) (h' : ¬ op.usesWavelet) :
    (SignalOp.run E s op).wt_param = s.wt_param ∧ (SignalOp.run E s op).wt_transform = s.wt_transform := by
  cases op with
  | waveletPsd P => exact (h trivial).elim
  | plotPsd W P => exact (h trivial).elim
  | plotFractal n b W => exact (h trivial).elim
  | fractal n b => exact (h trivial).elim
  | wavelet P => exact (h' trivial).elim
  | mfFull P q n save => exact (h' trivial).elim
  | welchPsd P => exact welchPsd_param P
  | mf q n save =>
    obtain ⟨m, hm⟩ := mfAnalysis_state s q n save
    simp only [SignalOp.run]
    rw [hm]; exact ⟨rfl, rfl⟩
  | hurst => simp only [SignalOp.run, hurst_state, and_self]
  | hmin => simp only [SignalOp.run, hmin_state, and_self]

theorem psd_param_persists (ops : List SignalOp) (hi : SInv E d fs log s) (hp : ∃ P, s.wt_param = some (.psd P))
    (h : ∀ op ∈ ops, ¬ op.usesWavelet) : ∃ P, (runOps E s ops).wt_param = some (.psd P) := by
  induction ops generalizing s with
  | nil => exact hp
  | cons op ops ih =>
    have h1 : ¬ op.usesWavelet := h op (by simp)
    refine ih (hi.run op) ?_ (fun o ho => h o (by simp [ho]))
    by_cases h2 : op.usesPsd
    · exact usesPsd_param hi op h2
    · obtain ⟨P, hP⟩ := hp
      exact ⟨P, (other_param op h2 h1).1.trans hP⟩

/-- C60: after a PSD estimation (`estimate_wavelet_psd`, `fractal_analysis`, `plot_psd`, `plot_fractal`; successful or not),
whatever happened before, and as long as no wavelet transform is requested, `hmin()` and `hurst()` raise
AttributeError. -/
theorem C60_psd_breaks_hmin (E : Ext (R + 1)) (d : Arr (R + 1)) (fs : ℝ) (log : String) (before after : List SignalOp)
    (op : SignalOp) (hop : op.usesPsd) (hafter : ∀ o ∈ after, ¬ o.usesWavelet) :
    let s := runOps E (SignalState.new d fs log) (before ++ op :: after)
    (Signal.hmin s).1 = .error .attributeError ∧ (Signal.hurst s).1 = .error .attributeError := by
  have hi := (SInv.new E d fs log).runOps before
  have hs : runOps E (SignalState.new d fs log) (before ++ op :: after) =
      runOps E (SignalOp.run E (runOps E (SignalState.new d fs log) before) op) after := by
    simp [runOps]
  obtain ⟨P, hP⟩ := psd_param_persists after (hi.run op) (usesPsd_param hi op hop) hafter
  rw [hs]
  intro s
  have hP : s.wt_param = some (.psd P) := hP
  unfold Signal.hmin Signal.hurst Signal.checkWt
  rw [hP]
  rcases s.wt_transform with _ | w <;> exact ⟨rfl, rfl⟩

/-- C60: right after a `wavelet_analysis` that returned `w` (in any history), and as long as no PSD is estimated and no other
transform requested, `hmin()` is the `estimate_hmin` of the transform `w`. -/
theorem C60_hmin_after_wavelet (E : Ext (R + 1)) (d : Arr (R + 1)) (fs : ℝ) (log : String) (before after : List SignalOp)
    (P : WaveletParameters) (w : WT (R + 1)) (hw : runWavelet E.pywt (some d) P = .ok w)
    (hafter : ∀ o ∈ after, ¬ o.usesWavelet ∧ ¬ o.usesPsd) :
    (Signal.hmin (runOps E (SignalState.new d fs log) (before ++ .wavelet P :: after))).1 =
      estimateHmin w.wt_coefs P.j1 w.j2_eff P.weighted true := by
  have hs : runOps E (SignalState.new d fs log) (before ++ .wavelet P :: after) =
      runOps E (Signal.waveletAnalysis E P (runOps E (SignalState.new d fs log) before)).2 after := by
    simp [runOps, SignalOp.run]
  have h1 := (C58_cache_transparent E d fs log before P w hw).2.1
  have h2 : ∃ Q : WaveletParameters, Q.pyEq P ∧
      (Signal.waveletAnalysis E P (runOps E (SignalState.new d fs log) before)).2.wt_param = some (.wave Q) := by
    have hi : SInv E d fs log (runOps E (SignalState.new d fs log) before) := (SInv.new E d fs log).runOps before
    unfold Signal.waveletAnalysis
    split
    · simp only [hi.hdata, hw]
      exact ⟨P, P.pyEq_refl, rfl⟩
    · rename_i hq
      rw [not_not] at hq
      unfold wtParamEq at hq
      split at hq
      · rename_i p hp; exact ⟨p, hq, hp⟩
      · exact hq.elim
  obtain ⟨Q, hQ, h2⟩ := h2
  rw [hs]
  generalize (Signal.waveletAnalysis E P (runOps E (SignalState.new d fs log) before)).2 = t at h1 h2
  have h3 : ∀ (ops : List SignalOp) (t : SignalState R), (∀ o ∈ ops, ¬ o.usesWavelet ∧ ¬ o.usesPsd) →
      (runOps E t ops).wt_param = t.wt_param ∧ (runOps E t ops).wt_transform = t.wt_transform := by
    intro ops
    induction ops with
    | nil => intro t _; exact ⟨rfl, rfl⟩
    | cons o ops ih =>
      intro t ho
      have := ho o (by simp)
      have h4 := other_param (E := E) (s := t) o this.2 this.1
      have h5 := ih (SignalOp.run E t o) (fun o' ho' => ho o' (by simp [ho']))
      exact ⟨h5.1.trans h4.1, h5.2.trans h4.2⟩
  obtain ⟨h4, h5⟩ := h3 after t hafter
  rw [h2] at h4
  rw [h1] at h5
  unfold Signal.hmin Signal.checkWt
  rw [h4, h5]
  simp only [WtParam.fields]
  rw [hQ.1, hQ.2.2.2.2.1]

/-- C60: `hurst()` raises in every state. -/
theorem C60_hurst_never_returns (s : SignalState R) : ∃ e, (Signal.hurst s).1 = .error e := by
  unfold Signal.hurst
  split
  · exact ⟨_, rfl⟩
  · split
    · exact ⟨_, rfl⟩
    · have key : ∀ y : Except PyErr (Row (R + 1) × StructFn (R + 1) × Arr (R + 1)), (∀ x, y ≠ .ok x) → ∃ e, y = .error e
        | .error e, _ => ⟨e, rfl⟩
        | .ok x, h => (h x rfl).elim
      exact key _ (C52_compute_hurst _ _ _ _).1

/-! ### C61 -/

/-- C61: `Signal.mf_analysis_full` raises in every state of the object and for all arguments. -/
theorem C61_mf_analysis_full_never_returns (s : SignalState R) (P : WaveletParameters) (q : Option QArg) (n : ℕ) (save : Bool) :
    ∃ e, (Signal.mfAnalysisFull E P q n save s).1 = .error e := by
  unfold Signal.mfAnalysisFull
  rcases hs : Signal.waveletAnalysis E P s with ⟨x, t⟩
  rcases x with e | w
  · exact ⟨e, rfl⟩
  · exact (C61_mf_analysis_never_returns t _ n save).1

/-- C61, usual case: after a successful `wavelet_analysis`, and with no result stored, the exception is the TypeError of the
unexpected keyword arguments. -/
theorem C61_type_error (s : SignalState R) (w : WT (R + 1)) (P : WaveletParameters) (q : QArg) (n : ℕ) (save : Bool)
    (hw : s.wt_transform = some w) (hp : s.wt_param = some (.wave P)) (hm : s.multi_fractal = none) :
    (Signal.mfAnalysis q n save s).1 = .error .typeError := by
  have hk : checkKwargs mfAnalysisParams (waveletTransformFields ++ ["p_exp", "j1", "weighted", "q", "n_cumul"]) =
      .error .typeError := by decide
  unfold Signal.mfAnalysis Signal.checkWt
  rw [hw, hp]
  simp only [hm, Option.isNone_none, if_true, WtParam.fields]
  rw [hk]

/-! ### C62 -/

/-- C62: after any history of method calls on `Signal(d, fs, log)`, raising calls included, `Signal.estimate_welch_psd(P)`
returns what `welch_estimation(d, fs, P)` returns, whenever the latter returns. -/
theorem C62_welch_transparent (E : Ext (R + 1)) (d : Arr (R + 1)) (fs : ℝ) (log : String) (ops : List SignalOp)
    (P : WelchParameters) (w : PSD (R + 1)) (hw : runWelch E.welch (some d) fs P = .ok w) :
    (Signal.estimateWelchPsd E P (runOps E (SignalState.new d fs log) ops)).1 = .ok w := by
  have h : SInv E d fs log (runOps E (SignalState.new d fs log) ops) := (SInv.new E d fs log).runOps ops
  generalize runOps E (SignalState.new d fs log) ops = s at h
  unfold Signal.estimateWelchPsd
  split
  · simp only [h.hdata, h.hfs, hw]
  · rename_i hq
    rw [not_or, not_not] at hq
    rw [h.welch P hq.2 w hw]

/-- C62: where `welch_estimation(d, fs, P)` raises, the method raises the same exception the first time; if a PSD was stored
before, the second call returns that stale PSD without any exception, otherwise it raises again. -/
theorem C62_welch_stale (s : SignalState R) (P : WelchParameters) (e : PyErr)
    (he : runWelch E.welch s.data s.fs P = .error e) (hne : s.welch_param ≠ some P) :
    let s₁ := (Signal.estimateWelchPsd E P s).2
    (Signal.estimateWelchPsd E P s).1 = .error e ∧
    (∀ old, s.welch_psd = some old → Signal.estimateWelchPsd E P s₁ = (.ok old, s₁)) ∧
    (s.welch_psd = none → Signal.estimateWelchPsd E P s₁ = (.error e, s₁)) := by
  have h1 : Signal.estimateWelchPsd E P s = (.error e, { s with welch_param := some P }) := by
    unfold Signal.estimateWelchPsd
    rw [if_pos (Or.inr hne)]
    simp only [he]
  intro s₁
  have hs₁ : s₁ = { s with welch_param := some P } := congrArg Prod.snd h1
  refine ⟨congrArg Prod.fst h1, ?_, ?_⟩
  · intro old hold
    unfold Signal.estimateWelchPsd
    rw [hs₁]
    simp [hold]
  · intro hnone
    unfold Signal.estimateWelchPsd
    rw [hs₁]
    simp [hnone, he]

end MFA
