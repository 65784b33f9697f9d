import Verif.Props.SignalDemo

/-! C87: a `Signal` whose attributes `data`, `fs` are replaced between the calls. -/

namespace MFA

open Classical

variable {R : ℕ} {E : Ext (R + 1)} {s t u : SignalState R}

/-! ### Specification: what a history assigned -/

/-- The data that the object holds after a history. -/
def currentData (d : Arr (R + 1)) : List (SignalStep R) → Arr (R + 1)
  | [] => d
  | .setData d' :: l => currentData d' l
  | _ :: l => currentData d l

/-- The sampling frequency that the object holds after a history. -/
def currentFs (fs : ℝ) : List (SignalStep R) → ℝ
  | [] => fs
  | .setFs fs' :: l => currentFs fs' l
  | _ :: l => currentFs fs l

/-- All the data that the object held at some time in a history. -/
def heldData (d : Arr (R + 1)) : List (SignalStep R) → List (Arr (R + 1))
  | [] => [d]
  | .setData d' :: l => d :: heldData d' l
  | _ :: l => heldData d l

/-- The step is not the call of a method that computes a wavelet transform. -/
def SignalStep.noWavelet : SignalStep R → Prop
  | .call op => ¬ op.usesWavelet
  | _ => True

/-- The step is not the call of a method that estimates a wavelet PSD. -/
def SignalStep.noPsd : SignalStep R → Prop
  | .call op => ¬ op.usesPsd
  | _ => True

/-- The step is not the call of a method that estimates a Welch PSD. -/
def SignalStep.noWelch : SignalStep R → Prop
  | .call (.welchPsd _) | .call (.plotPsd _ _) | .call (.plotFractal _ _ _) => False
  | _ => True

/-! ### What one call can change -/

/-- What a method call can do to the attributes. -/
structure Frame (E : Ext (R + 1)) (s t : SignalState R) : Prop where
  data : t.data = s.data
  fs : t.fs = s.fs
  log : t.log = s.log
  psd_param : t.wt_psd_param = none
  wave : t.wt_transform = s.wt_transform ∨ ∃ P w, runWavelet E.pywt s.data P = .ok w ∧ t.wt_transform = some w

theorem Frame.refl (h : s.wt_psd_param = none) : Frame E s s := ⟨rfl, rfl, rfl, h, Or.inl rfl⟩

theorem Frame.trans (h : Frame E s t) (h' : Frame E t u) : Frame E s u := by
  refine ⟨h'.data.trans h.data, h'.fs.trans h.fs, h'.log.trans h.log, h'.psd_param, ?_⟩
  rcases h'.wave with h1 | ⟨P, w, h1, h2⟩
  · rw [h1]; exact h.wave
  · rw [h.data] at h1; exact Or.inr ⟨P, w, h1, h2⟩

theorem frame_psd (h : s.wt_psd_param = none) (P : WTParametersPSD) : Frame E s (Signal.estimateWaveletPsd E P s).2 := by
  rw [estimateWaveletPsd_fresh P h]
  split <;> exact ⟨rfl, rfl, rfl, h, Or.inl rfl⟩

theorem frame_welch (h : s.wt_psd_param = none) (P : WelchParameters) : Frame E s (Signal.estimateWelchPsd E P s).2 := by
  unfold Signal.estimateWelchPsd
  split
  · simp only; split <;> exact ⟨rfl, rfl, rfl, h, Or.inl rfl⟩
  · split <;> exact Frame.refl h

theorem frame_fractal (h : s.wt_psd_param = none) (n : ℕ) (b : ℝ × ℝ) : Frame E s (Signal.fractalAnalysis E n b s).2 := by
  have h1 := frame_psd (E := E) h ⟨n, none⟩
  unfold Signal.fractalAnalysis
  rcases hs : Signal.estimateWaveletPsd E ⟨n, none⟩ s with ⟨x, t⟩
  rw [hs] at h1
  rcases x with e | psd
  · exact h1
  · simp only
    split
    · exact h1
    · exact ⟨h1.data, h1.fs, h1.log, h1.psd_param, h1.wave⟩

theorem frame_plotPsd (h : s.wt_psd_param = none) (W : WelchParameters) (P : WTParametersPSD) :
    Frame E s (Signal.plotPsd E W P s).2 := by
  have h1 := frame_psd (E := E) h P
  unfold Signal.plotPsd
  rcases hs : Signal.estimateWaveletPsd E P s with ⟨x, t⟩
  rw [hs] at h1
  rcases x with e | psd
  · exact h1
  · have h2 := h1.trans (frame_welch h1.psd_param W)
    simp only at h2 ⊢
    rcases ht : Signal.estimateWelchPsd E W t with ⟨y, u⟩
    rw [ht] at h2
    rcases y with e | psd <;> exact h2

theorem frame_plotFractal (h : s.wt_psd_param = none) (n : ℕ) (b : ℝ × ℝ) (W : WelchParameters) :
    Frame E s (Signal.plotFractal E n b W s).2 := by
  have h1 := frame_psd (E := E) h ⟨n, none⟩
  unfold Signal.plotFractal
  rcases hs : Signal.estimateWaveletPsd E ⟨n, none⟩ s with ⟨x, t⟩
  rw [hs] at h1
  rcases x with e | psd
  · exact h1
  · have h2 := h1.trans (frame_welch h1.psd_param W)
    simp only at h2 ⊢
    rcases ht : Signal.estimateWelchPsd E W t with ⟨y, u⟩
    rw [ht] at h2
    rcases y with e | psd
    · exact h2
    · have h3 := h2.trans (frame_fractal h2.psd_param n b)
      simp only at h3 ⊢
      rcases hu : Signal.fractalAnalysis E n b u with ⟨z, v⟩
      rw [hu] at h3
      rcases z with e | psd <;> exact h3

theorem frame_wavelet (h : s.wt_psd_param = none) (P : WaveletParameters) : Frame E s (Signal.waveletAnalysis E P s).2 := by
  unfold Signal.waveletAnalysis
  split
  · simp only
    split
    · exact ⟨rfl, rfl, rfl, h, Or.inl rfl⟩
    · rename_i w hw
      exact ⟨rfl, rfl, rfl, h, Or.inr ⟨P, w, hw, rfl⟩⟩
  · exact Frame.refl h

theorem frame_mf (h : s.wt_psd_param = none) (q : QArg) (n : ℕ) (save : Bool) : Frame E s (Signal.mfAnalysis q n save s).2 := by
  obtain ⟨m, hm⟩ := mfAnalysis_state s q n save
  rw [hm]
  exact ⟨rfl, rfl, rfl, h, Or.inl rfl⟩

theorem frame_run (h : s.wt_psd_param = none) (op : SignalOp) : Frame E s (SignalOp.run E s op) := by
  cases op with
  | waveletPsd P => exact frame_psd h P
  | welchPsd P => exact frame_welch h P
  | plotPsd W P => exact frame_plotPsd h W P
  | plotFractal n b W => exact frame_plotFractal h n b W
  | fractal n b => exact frame_fractal h n b
  | wavelet P => exact frame_wavelet h P
  | mf q n save => exact frame_mf h q n save
  | mfFull P q n save =>
    have h1 := frame_wavelet (E := E) h P
    simp only [SignalOp.run, Signal.mfAnalysisFull]
    rcases hs : Signal.waveletAnalysis E P s with ⟨x, t⟩
    rw [hs] at h1
    rcases x with e | w
    · exact h1
    · exact h1.trans (frame_mf h1.psd_param _ n save)
  | hurst => simp only [SignalOp.run, hurst_state]; exact Frame.refl h
  | hmin => simp only [SignalOp.run, hmin_state]; exact Frame.refl h

/-- What holds after a history of calls and assignments. -/
structure AInv (E : Ext (R + 1)) (d : Arr (R + 1)) (fs : ℝ) (D : List (Arr (R + 1))) (s : SignalState R) : Prop where
  data : s.data = some d
  fs : s.fs = fs
  psd_param : s.wt_psd_param = none
  wave : ∀ w, s.wt_transform = some w → ∃ d' ∈ D, ∃ P, runWavelet E.pywt (some d') P = .ok w

theorem mem_heldData (d : Arr (R + 1)) (l : List (SignalStep R)) : d ∈ heldData d l := by
  induction l with
  | nil => simp [heldData]
  | cons x l ih => cases x <;> simp_all [heldData]

theorem current_mem_held (d : Arr (R + 1)) (l : List (SignalStep R)) : currentData d l ∈ heldData d l := by
  induction l generalizing d with
  | nil => simp [currentData, heldData]
  | cons x l ih => cases x <;> simp [currentData, heldData, ih]

theorem pyEq_chain {P' P Q : WaveletParameters} (h : P'.pyEq P) (h' : P'.pyEq Q) : P.pyEq Q := by
  obtain ⟨a1, a2, a3, a4, a5, a6, a7⟩ := h
  obtain ⟨b1, b2, b3, b4, b5, b6, b7⟩ := h'
  refine ⟨a1.symm.trans b1, a2.symm.trans b2, a3.symm.trans b3, a4.symm.trans b4, a5.symm.trans b5, a6.symm.trans b6, ?_⟩
  revert a7 b7
  cases P'.p_exp <;> cases P.p_exp <;> cases Q.p_exp <;> simp only [PExp.pyEq] <;> first | trivial | (intro a b; exact a.symm.trans b) | simp

theorem ainv_steps {d : Arr (R + 1)} {fs : ℝ} (l : List (SignalStep R)) : ∀ (s : SignalState R) (d : Arr (R + 1)) (fs : ℝ),
    s.data = some d → s.fs = fs → s.wt_psd_param = none → (D : List (Arr (R + 1))) → d ∈ D →
    (∀ w, s.wt_transform = some w → ∃ d' ∈ D, ∃ P, runWavelet E.pywt (some d') P = .ok w) →
    AInv E (currentData d l) (currentFs fs l) (D ++ heldData d l) (runSteps E s l) := by
  induction l with
  | nil =>
    intro s d fs h1 h2 h3 D hD hw
    exact ⟨h1, h2, h3, fun w h => by obtain ⟨d', hd', P, hP⟩ := hw w h; exact ⟨d', List.mem_append_left _ hd', P, hP⟩⟩
  | cons x l ih =>
    intro s d fs h1 h2 h3 D hD hw
    cases x with
    | call op =>
      have hf := frame_run (E := E) h3 op
      refine ih (SignalOp.run E s op) d fs (hf.data.trans h1) (hf.fs.trans h2) hf.psd_param D hD ?_
      intro w hw'
      rcases hf.wave with h4 | ⟨P, w', h4, h5⟩
      · rw [h4] at hw'; exact hw w hw'
      · rw [h5] at hw'
        cases hw'
        rw [h1] at h4
        exact ⟨d, hD, P, h4⟩
    | setData d' =>
      have := ih { s with data := some d' } d' fs rfl h2 h3 (D ++ [d', d]) (by simp) (by
        intro w hw'; obtain ⟨d', hd', P, hP⟩ := hw w hw'; exact ⟨d', List.mem_append_left _ hd', P, hP⟩)
      refine ⟨this.data, this.fs, this.psd_param, fun w hw' => ?_⟩
      obtain ⟨d'', hd'', P, hP⟩ := this.wave w hw'
      refine ⟨d'', ?_, P, hP⟩
      have hm := mem_heldData d' l
      simp only [heldData, List.mem_append, List.mem_cons, List.not_mem_nil, or_false] at hd'' ⊢
      rcases hd'' with (h | rfl | rfl) | h
      · exact Or.inl h
      · exact Or.inr (Or.inr hm)
      · exact Or.inr (Or.inl rfl)
      · exact Or.inr (Or.inr h)
    | setFs fs' => exact ih { s with fs := fs' } d fs' h1 rfl h3 D hD hw
    | setLog l' => exact ih { s with log := l' } d fs h1 h2 h3 D hD hw

theorem ainv_history (E : Ext (R + 1)) (d : Arr (R + 1)) (fs : ℝ) (log : String) (l : List (SignalStep R)) :
    AInv E (currentData d l) (currentFs fs l) (heldData d l) (runSteps E (SignalState.new d fs log) l) := by
  have h := ainv_steps (E := E) (d := d) (fs := fs) l (SignalState.new d fs log) d fs rfl rfl rfl [d] (by simp)
    (by intro w hw; simp [SignalState.new] at hw)
  refine ⟨h.data, h.fs, h.psd_param, fun w hw => ?_⟩
  obtain ⟨d', hd', P, hP⟩ := h.wave w hw
  refine ⟨d', ?_, P, hP⟩
  simp only [List.mem_append, List.mem_cons, List.not_mem_nil, or_false] at hd'
  rcases hd' with rfl | h
  · exact mem_heldData _ l
  · exact h

/-! ### C87 -/

/-- **C87**.  After any history of calls and assignments, the object holds the data last assigned, and `estimate_wavelet_psd` is never
stale: it is the PSD of the current data and sampling frequency, exceptions included. -/
theorem C87_psd_fresh (E : Ext (R + 1)) (d : Arr (R + 1)) (fs : ℝ) (log : String) (l : List (SignalStep R)) (P : WTParametersPSD) :
    let s := runSteps E (SignalState.new d fs log) l
    s.data = some (currentData d l) ∧ s.fs = currentFs fs l ∧
    (Signal.estimateWaveletPsd E P s).1 = runPsd E.pywt (some (currentData d l)) (currentFs fs l) P := by
  have h := ainv_history E d fs log l
  refine ⟨h.data, h.fs, ?_⟩
  rw [estimateWaveletPsd_fresh P h.psd_param, h.data, h.fs]
  rcases runPsd E.pywt (some (currentData d l)) (currentFs fs l) P with e | p <;> rfl

/-- **C87**: a transform returned by `wavelet_analysis`, after any history of calls and assignments, is the transform of one of the data
that the object held at some time. -/
theorem C87_versions (E : Ext (R + 1)) (d : Arr (R + 1)) (fs : ℝ) (log : String) (l : List (SignalStep R)) (P : WaveletParameters)
    (w : WT (R + 1)) (hw : (Signal.waveletAnalysis E P (runSteps E (SignalState.new d fs log) l)).1 = .ok (some w)) :
    ∃ d' ∈ heldData d l, ∃ Q, runWavelet E.pywt (some d') Q = .ok w := by
  have h := ainv_history E d fs log l
  unfold Signal.waveletAnalysis at hw
  split at hw
  · simp only [h.data] at hw
    rcases hr : runWavelet E.pywt (some (currentData d l)) P with e | w'
    · rw [hr] at hw; cases hw
    · rw [hr] at hw
      cases hw
      exact ⟨currentData d l, current_mem_held d l, P, hr⟩
  · exact h.wave w (by simpa using hw)

theorem quiet_steps (l : List (SignalStep R)) (h : ∀ x ∈ l, x.noWavelet ∧ x.noPsd) :
    (runSteps E s l).wt_param = s.wt_param ∧ (runSteps E s l).wt_transform = s.wt_transform := by
  induction l generalizing s with
  | nil => exact ⟨rfl, rfl⟩
  | cons x l ih =>
    have h1 := h x (by simp)
    have h2 := ih (s := SignalStep.run E s x) fun y hy => h y (by simp [hy])
    have h3 : (SignalStep.run E s x).wt_param = s.wt_param ∧ (SignalStep.run E s x).wt_transform = s.wt_transform := by
      cases x with
      | call op => exact other_param op h1.2 h1.1
      | _ => exact ⟨rfl, rfl⟩
    exact ⟨h2.1.trans h3.1, h2.2.trans h3.2⟩

theorem runSteps_append (l l' : List (SignalStep R)) : runSteps E s (l ++ l') = runSteps E (runSteps E s l) l' := by
  simp [runSteps]

/-- **C87**, stale transforms: once `wavelet_analysis(P)` has returned `w`, then whatever data are assigned afterwards, and as long as no
wavelet PSD is estimated and no transform with other parameters is requested, `wavelet_analysis(P)` still returns `w`, and `hmin()`
is still that of `w`: the new data are ignored. -/
theorem C87_stale_transform (E : Ext (R + 1)) (d : Arr (R + 1)) (fs : ℝ) (log : String) (before after : List (SignalStep R))
    (P : WaveletParameters) (w : WT (R + 1))
    (hw : (Signal.waveletAnalysis E P (runSteps E (SignalState.new d fs log) before)).1 = .ok (some w))
    (hafter : ∀ x ∈ after, x.noWavelet ∧ x.noPsd) :
    let s := runSteps E (SignalState.new d fs log) (before ++ .call (.wavelet P) :: after)
    (Signal.waveletAnalysis E P s).1 = .ok (some w) ∧
    (Signal.hmin s).1 = estimateHmin w.wt_coefs P.j1 w.j2_eff P.weighted true := by
  intro s
  have hs : s = runSteps E (Signal.waveletAnalysis E P (runSteps E (SignalState.new d fs log) before)).2 after := by
    show runSteps E _ _ = _
    rw [runSteps_append]
    rfl
  generalize runSteps E (SignalState.new d fs log) before = t at hw hs
  have h1 : ∃ Q : WaveletParameters, Q.pyEq P ∧ (Signal.waveletAnalysis E P t).2.wt_param = some (.wave Q) ∧
      (Signal.waveletAnalysis E P t).2.wt_transform = some w := by
    unfold Signal.waveletAnalysis at hw ⊢
    split at hw
    · rename_i hq
      simp only [] at hw
      rw [if_pos hq]
      simp only []
      rcases hr : runWavelet E.pywt t.data P with e | w'
      · rw [hr] at hw; cases hw
      · rw [hr] at hw
        cases hw
        exact ⟨P, P.pyEq_refl, rfl, rfl⟩
    · rename_i hq
      rw [if_neg hq]
      rw [not_not] at hq
      unfold wtParamEq at hq
      split at hq
      · rename_i p hp; exact ⟨p, hq, hp, by simpa using hw⟩
      · exact hq.elim
  obtain ⟨Q, hQ, h2, h3⟩ := h1
  obtain ⟨h4, h5⟩ := quiet_steps (E := E) (s := (Signal.waveletAnalysis E P t).2) after hafter
  rw [← hs, h2] at h4
  rw [← hs, h3] at h5
  constructor
  · unfold Signal.waveletAnalysis
    have : wtParamEq s.wt_param P := by rw [h4]; exact hQ
    rw [if_neg (not_not.2 this), h5]
  · unfold Signal.hmin Signal.checkWt
    rw [h4, h5]
    simp only [WtParam.fields]
    rw [hQ.1, hQ.2.2.2.2.1]

theorem usesPsd_param' (h : s.wt_psd_param = none) (op : SignalOp) (hop : op.usesPsd) :
    ∃ P, (SignalOp.run E s op).wt_param = some (.psd P) := by
  cases op with
  | waveletPsd P => exact ⟨_, waveletPsd_param P h⟩
  | plotPsd W P => exact ⟨_, plotPsd_param W P h⟩
  | plotFractal n b W =>
    refine ⟨⟨n, none⟩, ?_⟩
    have i1 := frame_psd (E := E) h ⟨n, none⟩
    have h1 := waveletPsd_param (E := E) ⟨n, none⟩ h
    simp only [SignalOp.run]
    unfold Signal.plotFractal
    rcases hs : Signal.estimateWaveletPsd E ⟨n, none⟩ s with ⟨x, t⟩
    rw [hs] at h1 i1
    rcases x with e | psd
    · exact h1
    · have h2 := (welchPsd_param (E := E) (s := t) W).1.trans h1
      have i2 := frame_welch (E := E) i1.psd_param W
      simp only at h2 i2 ⊢
      rcases ht : Signal.estimateWelchPsd E W t with ⟨y, u⟩
      rw [ht] at h2 i2
      rcases y with e | psd
      · exact h2
      · have h3 := fractal_param (E := E) n b i2.psd_param
        simp only at h3 ⊢
        rcases hu : Signal.fractalAnalysis E n b u with ⟨z, v⟩
        rw [hu] at h3
        rcases z with e | psd <;> exact h3
  | fractal n b => exact ⟨_, fractal_param n b h⟩
  | _ => exact hop.elim

/-- **C87**, how the transform is refreshed: after the estimation of any wavelet PSD (by whatever method), and as long as no transform is
requested, `wavelet_analysis(P)` is that of the current data, for every `P`, exceptions included. -/
theorem C87_psd_refreshes (E : Ext (R + 1)) (d : Arr (R + 1)) (fs : ℝ) (log : String) (before after : List (SignalStep R))
    (op : SignalOp) (hop : op.usesPsd) (hafter : ∀ x ∈ after, x.noWavelet) (P : WaveletParameters) :
    let l := before ++ .call op :: after
    (Signal.waveletAnalysis E P (runSteps E (SignalState.new d fs log) l)).1 =
      (runWavelet E.pywt (some (currentData d l)) P).map some := by
  intro l
  have hall := ainv_history E d fs log l
  have hb := ainv_history E d fs log before
  have hp : ∃ Q, (runSteps E (SignalState.new d fs log) l).wt_param = some (.psd Q) := by
    have hl : runSteps E (SignalState.new d fs log) l = runSteps E (SignalOp.run E (runSteps E (SignalState.new d fs log) before) op) after := by
      show runSteps E _ (before ++ _) = _
      rw [runSteps_append]; rfl
    rw [hl]
    have h0 := usesPsd_param' (E := E) hb.psd_param op hop
    have h0' := (frame_run (E := E) hb.psd_param op).psd_param
    generalize SignalOp.run E (runSteps E (SignalState.new d fs log) before) op = t at h0 h0'
    clear hall hl l
    induction after generalizing t with
    | nil => exact h0
    | cons x l ih =>
      refine ih (fun y hy => hafter y (by simp [hy])) (SignalStep.run E t x) ?_ ?_
      · have hx := hafter x (by simp)
        cases x with
        | call o =>
          by_cases ho : o.usesPsd
          · exact usesPsd_param' h0' o ho
          · obtain ⟨Q, hQ⟩ := h0
            exact ⟨Q, (other_param o ho hx).1.trans hQ⟩
        | _ => exact h0
      · cases x with
        | call o => exact (frame_run h0' o).psd_param
        | _ => exact h0'
  obtain ⟨Q, hQ⟩ := hp
  unfold Signal.waveletAnalysis
  rw [if_pos (by rw [hQ]; exact id)]
  simp only [hall.data]
  rcases runWavelet E.pywt (some (currentData d l)) P with e | w <;> rfl

/-- **C87**: so does a request with parameters that differ from those of the last request. -/
theorem C87_new_parameters (E : Ext (R + 1)) (d : Arr (R + 1)) (fs : ℝ) (log : String) (before after : List (SignalStep R))
    (P Q : WaveletParameters) (hPQ : ¬ P.pyEq Q)
    (hafter : ∀ x ∈ after, x.noWavelet ∧ x.noPsd) :
    let l := before ++ .call (.wavelet P) :: after
    (Signal.waveletAnalysis E Q (runSteps E (SignalState.new d fs log) l)).1 =
      (runWavelet E.pywt (some (currentData d l)) Q).map some := by
  intro l
  have hall := ainv_history E d fs log l
  have hl : runSteps E (SignalState.new d fs log) l =
      runSteps E (Signal.waveletAnalysis E P (runSteps E (SignalState.new d fs log) before)).2 after := by
    show runSteps E _ (before ++ _) = _
    rw [runSteps_append]; rfl
  have h1 : ∃ P' : WaveletParameters, P'.pyEq P ∧
      (Signal.waveletAnalysis E P (runSteps E (SignalState.new d fs log) before)).2.wt_param = some (.wave P') := by
    unfold Signal.waveletAnalysis
    split
    · simp only []
      split <;> exact ⟨P, P.pyEq_refl, rfl⟩
    · rename_i hq
      rw [not_not] at hq
      unfold wtParamEq at hq
      split at hq
      · rename_i p hp; exact ⟨p, hq, hp⟩
      · exact hq.elim
  obtain ⟨P', hP', h2⟩ := h1
  have h3 := (quiet_steps (E := E) (s := (Signal.waveletAnalysis E P (runSteps E (SignalState.new d fs log) before)).2) after hafter).1
  rw [← hl, h2] at h3
  unfold Signal.waveletAnalysis
  rw [if_pos (by rw [h3]; exact fun h => hPQ (pyEq_chain hP' h))]
  simp only [hall.data]
  rcases runWavelet E.pywt (some (currentData d l)) Q with e | w <;> rfl

theorem noWelch_state (op : SignalOp) (h : (SignalStep.call (R := R) op).noWelch) (h0 : s.wt_psd_param = none) :
    (SignalOp.run E s op).welch_param = s.welch_param ∧ (SignalOp.run E s op).welch_psd = s.welch_psd := by
  have hpsd : ∀ P, (Signal.estimateWaveletPsd E P s).2.welch_param = s.welch_param ∧
      (Signal.estimateWaveletPsd E P s).2.welch_psd = s.welch_psd := by
    intro P
    rw [estimateWaveletPsd_fresh P h0]
    split <;> exact ⟨rfl, rfl⟩
  have hwav : ∀ P, (Signal.waveletAnalysis E P s).2.welch_param = s.welch_param ∧
      (Signal.waveletAnalysis E P s).2.welch_psd = s.welch_psd := by
    intro P
    unfold Signal.waveletAnalysis
    split
    · simp only []
      split <;> exact ⟨rfl, rfl⟩
    · exact ⟨rfl, rfl⟩
  have hmf : ∀ (t : SignalState R) q n save, (Signal.mfAnalysis q n save t).2.welch_param = t.welch_param ∧
      (Signal.mfAnalysis q n save t).2.welch_psd = t.welch_psd := by
    intro t q n save
    obtain ⟨m, hm⟩ := mfAnalysis_state t q n save
    rw [hm]; exact ⟨rfl, rfl⟩
  cases op with
  | waveletPsd P => exact hpsd P
  | welchPsd P => exact h.elim
  | plotPsd W P => exact h.elim
  | plotFractal n b W => exact h.elim
  | fractal n b =>
    have h1 := hpsd ⟨n, none⟩
    simp only [SignalOp.run]
    unfold Signal.fractalAnalysis
    rcases hs : Signal.estimateWaveletPsd E ⟨n, none⟩ s with ⟨x, t⟩
    rw [hs] at h1
    rcases x with e | psd
    · exact h1
    · simp only
      split <;> exact h1
  | wavelet P => exact hwav P
  | mf q n save => exact hmf s q n save
  | mfFull P q n save =>
    have h1 := hwav P
    simp only [SignalOp.run, Signal.mfAnalysisFull]
    rcases hs : Signal.waveletAnalysis E P s with ⟨x, t⟩
    rw [hs] at h1
    rcases x with e | w
    · exact h1
    · have := hmf t (q.getD (.pylist [.int 2])) n save
      exact ⟨this.1.trans h1.1, this.2.trans h1.2⟩
  | hurst => simp only [SignalOp.run, hurst_state, and_self]
  | hmin => simp only [SignalOp.run, hmin_state, and_self]

/-- **C87**, Welch: once `estimate_welch_psd(P)` has returned `p`, and as long as no other Welch estimation is requested, it returns `p`
whatever data and sampling frequency are assigned; a request with other parameters is computed from the current data and
sampling frequency. -/
theorem C87_welch (E : Ext (R + 1)) (d : Arr (R + 1)) (fs : ℝ) (log : String) (before after : List (SignalStep R))
    (P : WelchParameters) (p : PSD (R + 1))
    (hp : (Signal.estimateWelchPsd E P (runSteps E (SignalState.new d fs log) before)).1 = .ok p)
    (hafter : ∀ x ∈ after, x.noWelch) :
    let l := before ++ .call (.welchPsd P) :: after
    let s := runSteps E (SignalState.new d fs log) l
    (Signal.estimateWelchPsd E P s).1 = .ok p ∧
    ∀ Q, Q ≠ P → (Signal.estimateWelchPsd E Q s).1 = runWelch E.welch (some (currentData d l)) (currentFs fs l) Q := by
  intro l s
  have hall := ainv_history E d fs log l
  have hb := ainv_history E d fs log before
  have hl : s = runSteps E (Signal.estimateWelchPsd E P (runSteps E (SignalState.new d fs log) before)).2 after := by
    show runSteps E _ (before ++ _) = _
    rw [runSteps_append]; rfl
  have h1 : (Signal.estimateWelchPsd E P (runSteps E (SignalState.new d fs log) before)).2.welch_param = some P ∧
      (Signal.estimateWelchPsd E P (runSteps E (SignalState.new d fs log) before)).2.welch_psd = some p := by
    generalize runSteps E (SignalState.new d fs log) before = t at hp
    unfold Signal.estimateWelchPsd at hp ⊢
    split at hp
    · rename_i hq
      rw [if_pos hq]
      simp only [] at hp ⊢
      rcases hr : runWelch E.welch t.data t.fs P with e | p'
      · rw [hr] at hp; cases hp
      · rw [hr] at hp; cases hp; exact ⟨rfl, rfl⟩
    · rename_i hq
      rw [if_neg hq]
      push Not at hq
      rcases ht : t.welch_psd with _ | p'
      · rw [ht] at hp; cases hp
      · rw [ht] at hp
        cases hp
        exact ⟨hq.2, ht⟩
  have h0 := (frame_welch (E := E) hb.psd_param P).psd_param
  have h2 : s.welch_param = some P ∧ s.welch_psd = some p := by
    rw [hl]
    generalize (Signal.estimateWelchPsd E P (runSteps E (SignalState.new d fs log) before)).2 = t at h0 h1
    clear hall hl
    clear s l
    induction after generalizing t with
    | nil => exact h1
    | cons x l ih =>
      have hx := hafter x (by simp)
      refine ih (fun y hy => hafter y (by simp [hy])) (SignalStep.run E t x) ?_ ?_
      · cases x with
        | call o => exact (frame_run h0 o).psd_param
        | _ => exact h0
      · cases x with
        | call o =>
          have := noWelch_state (E := E) o hx h0
          exact ⟨this.1.trans h1.1, this.2.trans h1.2⟩
        | _ => exact h1
  constructor
  · unfold Signal.estimateWelchPsd
    rw [if_neg (by rw [h2.1, h2.2]; simp), h2.2]
  · intro Q hQ
    unfold Signal.estimateWelchPsd
    rw [if_pos (by right; rw [h2.1]; simpa using fun h => hQ h.symm)]
    have hd : s.data = some (currentData d l) := hall.data
    have hf : s.fs = currentFs fs l := hall.fs
    simp only [hd, hf]
    rcases runWelch E.welch (some (currentData d l)) (currentFs fs l) Q with e | w <;> rfl

/-! ### A concrete history -/

/-- The transform of the old data is returned although other data have been assigned; estimating a PSD makes the object notice. -/
example (d' : Arr 1) : ∃ w, runWavelet demoExt.pywt (some demoData) demoGood = .ok w ∧
    (Signal.waveletAnalysis demoExt demoGood (runSteps demoExt (SignalState.new demoData 1 "log2")
      [.call (.wavelet demoGood), .setData d', .setFs 2])).1 = .ok (some w) ∧
    (Signal.waveletAnalysis demoExt demoGood (runSteps demoExt (SignalState.new demoData 1 "log2")
      [.call (.wavelet demoGood), .setData d', .call (.waveletPsd ⟨2, none⟩)])).1 = (runWavelet demoExt.pywt (some d') demoGood).map some := by
  obtain ⟨w, hw⟩ := demoGood_runs
  refine ⟨w, hw, ?_, ?_⟩
  · exact (C87_stale_transform demoExt demoData 1 "log2" [] [.setData d', .setFs 2] demoGood w
      (C58_cache_transparent demoExt demoData 1 "log2" [] demoGood w hw).1 (by simp [SignalStep.noWavelet, SignalStep.noPsd])).1
  · exact C87_psd_refreshes demoExt demoData 1 "log2" [.call (.wavelet demoGood), .setData d'] [] (.waveletPsd ⟨2, none⟩) trivial
      (by simp) demoGood

end MFA
