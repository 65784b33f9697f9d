import Verif.Model.Signal
import Verif.Props.Utils

/-!
# Python-equal parameters give the same wavelet transform
-/

namespace MFA

variable {R : ℕ}

theorem fastPower_val {a b : Expo} (h : a.val = b.val) (x : Fl) : fastPower a x = fastPower b x := by
  rw [C27_fast_power a x, C27_fast_power b x, h]

theorem computeLeaders_val {a b : Expo} (h : a.val = b.val) (detail sv : Arr R) (scale : ℕ) :
    computeLeaders detail sv scale (.num a) = computeLeaders detail sv scale (.num b) := by
  have h1 : leaderInput detail scale (.num a) = leaderInput detail scale (.num b) := by
    simp only [leaderInput]
    congr 1
    funext x
    rw [fastPower_val h]
  have h2 : ∀ l : Arr R, leaderOutput l scale (.num a) = leaderOutput l scale (.num b) := by
    intro l
    simp only [leaderOutput, h]
  unfold computeLeaders
  simp only [h1, h2, checkFormalism]

theorem leadLoop_val {a b : Expo} (h : a.val = b.val) (P : LoopParams) : ∀ (n scale : ℕ) (ml : ℤ) (x : Arr R)
    (st : LeadState R), leadLoop P (.num a) n scale ml x st = leadLoop P (.num b) n scale ml x st
  | 0, _, _, _, _ => rfl
  | n + 1, scale, ml, x, st => by
    unfold leadLoop
    simp only [computeLeaders_val h, leadLoop_val h P n]

theorem correctLeaders_val {a b : Expo} (h : a.val = b.val) (coefs leaders : MRQ R) (j1 j2 : ℤ) (w : Bool) (ml : ℤ) :
    correctLeaders coefs leaders a j1 j2 w ml = correctLeaders coefs leaders b j1 j2 w ml := by
  unfold correctLeaders estimateEtaP
  simp only [h]

theorem waveletAnalysis_val {a b : Expo} (h : a.val = b.val) (x : Arr R) (wt : Wavelet) (j1 : ℤ) (j2 : Option ℝ)
    (g nm : ℝ) (w : Bool) :
    waveletAnalysis x (.num a) wt j1 j2 g nm w = waveletAnalysis x (.num b) wt j1 j2 g nm w := by
  unfold waveletAnalysis
  simp only [leadLoop_val h, correctLeaders_val h, checkFormalism]

theorem waveletAnalysis_pyEq {p q : PExp} (h : p.pyEq q) (x : Arr R) (wt : Wavelet) (j1 : ℤ) (j2 : Option ℝ)
    (g nm : ℝ) (w : Bool) : waveletAnalysis x p wt j1 j2 g nm w = waveletAnalysis x q wt j1 j2 g nm w := by
  cases p <;> cases q <;> simp only [PExp.pyEq] at h
  · rfl
  · rfl
  · exact waveletAnalysis_val h ..

theorem PExp.pyEq_refl (p : PExp) : p.pyEq p := by cases p <;> simp [PExp.pyEq]

theorem PExp.pyEq_symm {p q : PExp} (h : p.pyEq q) : q.pyEq p := by
  cases p <;> cases q <;> simp_all [PExp.pyEq]

theorem WaveletParameters.pyEq_refl (P : WaveletParameters) : P.pyEq P :=
  ⟨rfl, rfl, rfl, rfl, rfl, rfl, P.p_exp.pyEq_refl⟩

theorem runWavelet_pyEq {P Q : WaveletParameters} (h : P.pyEq Q) (W : WaveletLookup) (d : Option (Arr (R + 1))) :
    runWavelet W d P = runWavelet W d Q := by
  obtain ⟨h1, h2, h3, h4, h5, h6, h7⟩ := h
  unfold runWavelet
  rw [h1, h2, h3, h4, h5, h6]
  cases d with
  | none => rfl
  | some d =>
    simp only
    cases W Q.wt_name with
    | error e => rfl
    | ok wt => simp only; exact waveletAnalysis_pyEq h7 ..

end MFA
