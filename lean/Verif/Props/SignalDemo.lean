import Verif.Props.PsdDifference
import Verif.Props.Wavelet

/-! Concrete cases for the properties of `Signal` (C58-C63). -/

namespace MFA

open Classical

noncomputable section

/-- A library that knows one wavelet, and a Welch estimator that refuses segments longer than 8. -/
def demoExt : Ext 1 where
  pywt := fun name => if name = "db1" then .ok { dec_lo := [1, 1], dec_hi := [1, -1] } else .error .valueError
  welch := fun a n _ _ => if n ≤ 8 then .ok a else .error .valueError

/-- 40 samples. -/
def demoData : Arr 1 := (List.range 40).map fun (i : ℕ) (_ : Fin 1) => Fl.fin ((i : ℝ) ^ 2)

/-- Parameters with a known wavelet. -/
def demoGood : WaveletParameters :=
  { j1 := 1, j2 := none, normalization := 1, gamint := 0, weighted := false, wt_name := "db1", p_exp := .none }

/-- The same with a misspelt wavelet. -/
def demoBad : WaveletParameters := { demoGood with wt_name := "bd1" }

theorem demoGood_runs : ∃ w, runWavelet demoExt.pywt (some demoData) demoGood = .ok w := by
  obtain ⟨w, hw⟩ := C05_total demoData .none (Or.inl rfl) { dec_lo := [1, 1], dec_hi := [1, -1] } 1 none 0 1 false
    (by norm_num) (by simp [demoData]) (by norm_num)
  exact ⟨w, by simpa [runWavelet, demoExt, demoGood] using hw⟩

theorem demoBad_raises : runWavelet demoExt.pywt (some demoData) demoBad = .error .valueError := by
  simp [runWavelet, demoExt, demoBad]

/-- C58/C59: the transform of the good parameters is returned after a failed call; the failed call itself is answered by a
stale transform when repeated. -/
example : ∃ w, runWavelet demoExt.pywt (some demoData) demoGood = .ok w ∧
    let s := runOps demoExt (SignalState.new demoData 1 "log2") [.wavelet demoGood]
    let s₁ := runOps demoExt (SignalState.new demoData 1 "log2") [.wavelet demoGood, .wavelet demoBad]
    (Signal.waveletAnalysis demoExt demoBad s).1 = .error .valueError ∧
    (Signal.waveletAnalysis demoExt demoBad s₁).1 = .ok (some w) ∧
    (Signal.waveletAnalysis demoExt demoGood s₁).1 = .ok (some w) := by
  obtain ⟨w, hw⟩ := demoGood_runs
  refine ⟨w, hw, ?_⟩
  intro s s₁
  have hs : s.wt_transform = some w := (C58_cache_transparent demoExt demoData 1 "log2" [] demoGood w hw).2.1
  have hd : s.data = some demoData := (C58_cache_transparent demoExt demoData 1 "log2" [.wavelet demoGood] demoGood w hw).2.2.1
  have hp : s.wt_param = some (.wave demoGood) := by
    show (Signal.waveletAnalysis demoExt demoGood (SignalState.new demoData 1 "log2")).2.wt_param = _
    unfold Signal.waveletAnalysis
    rw [if_pos (by intro h; exact h)]
    simp only [SignalState.new, hw]
  obtain ⟨h1, h2⟩ := C59_stale_after_failure (E := demoExt) s demoBad .valueError (by rw [hd]; exact demoBad_raises) (by
    intro Q hQ
    rw [hp] at hQ
    cases hQ
    intro h
    have := h.2.2.2.2.2.1
    simp [demoGood, demoBad] at this)
  refine ⟨h1, ?_, (C58_cache_transparent demoExt demoData 1 "log2" [.wavelet demoGood, .wavelet demoBad] demoGood w hw).1⟩
  show (Signal.waveletAnalysis demoExt demoBad (Signal.waveletAnalysis demoExt demoBad s).2).1 = _
  rw [h2, hs]

/-- C60: a history in which a PSD estimation separates a transform from `hmin()`. -/
example : (Signal.hmin (runOps demoExt (SignalState.new demoData 1 "log2")
    [.wavelet demoGood, .waveletPsd ⟨2, none⟩, .hmin])).1 = .error .attributeError :=
  (C60_psd_breaks_hmin demoExt demoData 1 "log2" [.wavelet demoGood] [.hmin] (.waveletPsd ⟨2, none⟩) trivial
    (by simp [SignalOp.usesWavelet])).1

/-- C62: a successful Welch estimation, then a failing one, answered by the stale PSD when repeated. -/
example : ∃ p, runWelch demoExt.welch (some demoData) 1 ⟨8, none⟩ = .ok p ∧
    (Signal.estimateWelchPsd demoExt ⟨16, none⟩ (runOps demoExt (SignalState.new demoData 1 "log2")
      [.welchPsd ⟨8, none⟩])).1 = .error .valueError ∧
    (Signal.estimateWelchPsd demoExt ⟨16, none⟩ (runOps demoExt (SignalState.new demoData 1 "log2")
      [.welchPsd ⟨8, none⟩, .welchPsd ⟨16, none⟩])).1 = .ok p := by
  have hgood : ∃ p, runWelch demoExt.welch (some demoData) 1 ⟨8, none⟩ = .ok p := by
    simp [runWelch, welchEstimation, welchSizes, welchFreq, demoExt]
  obtain ⟨p, hp⟩ := hgood
  have hbad : runWelch demoExt.welch (some demoData) 1 ⟨16, none⟩ = .error .valueError := by
    simp [runWelch, welchEstimation, welchSizes, welchFreq, demoExt]
  refine ⟨p, hp, ?_⟩
  have hs : runOps demoExt (SignalState.new demoData 1 "log2") [.welchPsd ⟨8, none⟩] =
      { SignalState.new demoData 1 "log2" with welch_param := some ⟨8, none⟩, welch_psd := some p } := by
    show (Signal.estimateWelchPsd demoExt ⟨8, none⟩ _).2 = _
    unfold Signal.estimateWelchPsd
    rw [if_pos (show (SignalState.new demoData 1 "log2").welch_psd.isNone = true ∨ _ from Or.inl rfl)]
    simp only [SignalState.new, hp]
  have := C62_welch_stale (E := demoExt) (runOps demoExt (SignalState.new demoData 1 "log2") [.welchPsd ⟨8, none⟩])
    ⟨16, none⟩ .valueError (by rw [hs]; exact hbad) (by rw [hs]; simp)
  refine ⟨this.1, ?_⟩
  show (Signal.estimateWelchPsd demoExt ⟨16, none⟩ (Signal.estimateWelchPsd demoExt ⟨16, none⟩
    (runOps demoExt (SignalState.new demoData 1 "log2") [.welchPsd ⟨8, none⟩])).2).1 = _
  rw [this.2.1 p (by rw [hs])]

/-- C63: two PSDs with one common frequency. -/
example : ∃ s D, Signal.psdDifference
    { SignalState.new demoData 1 "log2" with wt_psd := some ⟨[2, 1], [fun _ => Fl.fin 5, fun _ => Fl.fin 7]⟩ }
    { SignalState.new demoData 1 "log2" with wt_psd := some ⟨[1, 3], [fun _ => Fl.fin 4, fun _ => Fl.fin 9]⟩ } none = .ok s ∧
    s.wt_psd = some D ∧ D.freq = [1] ∧ D.psd = [fun _ => Fl.fin 3] := by
  obtain ⟨s, D, h1, h2, -, -, -, h4, h5, h6, h7⟩ := C63_difference
    { SignalState.new demoData 1 "log2" with wt_psd := some ⟨[2, 1], [fun _ => Fl.fin 5, fun _ => Fl.fin 7]⟩ }
    { SignalState.new demoData 1 "log2" with wt_psd := some ⟨[1, 3], [fun _ => Fl.fin 4, fun _ => Fl.fin 9]⟩ }
    _ _ rfl rfl ⟨by simp, rfl⟩ ⟨by simp, rfl⟩
  have hf : D.freq = [1] := by
    have hm : ∀ f, f ∈ D.freq ↔ f = 1 := by
      intro f
      rw [h6 f]
      simp
      constructor
      · rintro ⟨rfl | rfl, h | h⟩ <;> linarith
      · rintro rfl; simp
    match hD : D.freq, h4, hm with
    | [], _, hm => exact absurd ((hm 1).2 rfl) (by simp)
    | [x], _, hm => rw [(hm x).1 (by simp)]
    | x :: y :: l, h4, hm =>
      have := (List.pairwise_cons.1 h4).1 y (by simp)
      rw [(hm x).1 (by simp), (hm y).1 (by simp)] at this
      exact absurd this (lt_irrefl _)
  refine ⟨s, D, h1, h2, hf, ?_⟩
  have hrow := (h7 1 (fun _ => Fl.fin 3)).2 ⟨fun _ => Fl.fin 7, fun _ => Fl.fin 4, ⟨1, rfl, rfl⟩, ⟨0, rfl, rfl⟩, by
    funext r; rw [Fl.fin_sub]; norm_num⟩
  obtain ⟨i, hi, hi'⟩ := hrow
  rw [hf] at hi h5
  match i, hi with
  | 0, _ =>
    match hD : D.psd, h5 with
    | [x], _ =>
      rw [hD] at hi'
      simpa using hi'

end

end MFA
