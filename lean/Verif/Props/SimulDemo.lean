import Verif.Props.SimulArgs

/-!
# C70 - C76: concrete cases that meet the hypotheses
-/

namespace MFA

open Classical Finset Matrix MeasureTheory

noncomputable section

/-- A stream of independent standard normal draws exists, and is white noise: the hypothesis of C70 - C72, C75. -/
example : ∃ (Ω : Type) (_ : MeasurableSpace Ω) (μ : Measure Ω) (g : Ω → ℕ → ℝ), WhiteNoise μ g := by
  obtain ⟨Ω, m, μ, g, h⟩ := exists_stdNormal
  exact ⟨Ω, m, μ, g, h.whiteNoise⟩

/-- C70, a covariance with a negative spectrum (1, -1, 1, ... would be fine; `0, 1` is not): the call warns. -/
example : cmeWarns [0, 1] = true := by
  by_contra h
  have h1 := (cmeWarns_iff [0, 1] (by simp)).mp (by simpa using h) 1 (by simp)
  simp [cosSpectrum, Finset.sum_range_succ] at h1
  norm_num at h1

/-- C70 / C72 on a concrete call: 1000 samples, 3 realisations, `H = 0.8`. -/
example : ∃ (Ω : Type) (_ : MeasurableSpace Ω) (μ : Measure Ω) (g : Ω → ℕ → ℝ) (x : Ω → RArr 3), StdNormal μ g ∧
    Returns (fbm 3 1000 (4 / 5) 1 none "cme" none) g x ∧
    ∀ n, 1 ≤ n → n ≤ 1000 → ∀ r, ∫ ω, ((x ω).getD (n - 1) fun _ => 0) r ^ 2 ∂μ = (1:ℝ) ^ 2 * ((n : ℝ) * (1 / (1000 : ℕ))) ^ (2 * (4 / 5 : ℝ)) := by
  obtain ⟨Ω, m, μ, g, h⟩ := exists_stdNormal
  obtain ⟨x, hx, hv⟩ := C72_fbm_variance (R := 3) (N := 1000) (H := 4 / 5) (sigma := 1) (dt := none) none (by norm_num) (by norm_num)
    (by norm_num) (by simp) (by norm_num) h.whiteNoise
  refine ⟨Ω, m, μ, g, x, h, hx, fun n h1 h2 r => ?_⟩
  rw [hv n h1 h2 r, effStep, if_pos (Or.inl rfl)]

/-- C71 on a concrete call: `H = 0.8` by Cholesky does not have the covariance of fractional Gaussian noise. -/
example : ∃ (Ω : Type) (_ : MeasurableSpace Ω) (μ : Measure Ω) (g : Ω → ℕ → ℝ) (x : Ω → RArr 1), StdNormal μ g ∧
    Returns (fgn 1 100 (4 / 5) 1 (some 1) "chol" none) g x ∧
    ¬ HasCovariance μ 100 x (fun n m => fgnCovariance (4 / 5) 1 (effStep (some 1) 100) (n * effStep (some 1) 100) (m * effStep (some 1) 100)) := by
  obtain ⟨Ω, m, μ, g, h⟩ := exists_stdNormal
  obtain ⟨x, hx, hiff⟩ := C71_fgn (R := 1) (N := 100) (H := 4 / 5) (sigma := 1) (dt := some 1) (by norm_num) (by norm_num)
    (by norm_num) (by norm_num) (by intro d hd; cases hd; norm_num) (by norm_num) h.whiteNoise
  refine ⟨Ω, m, μ, g, x, h, hx, fun hc => ?_⟩
  have := hiff.mp hc
  norm_num at this

/-- C71, the matrix form: two samples with correlation 1/2 is a positive definite request. -/
example : (toeplitz [1, 1 / 2]).PosDef := by
  refine toeplitz_posDef _ (by simp) fun k hk => ?_
  have hk' : k = 0 ∨ k = 1 := by simp at hk; omega
  rcases hk' with rfl | rfl
  · simp [cosSpectrum, Finset.sum_range_succ]; norm_num
  · simp [cosSpectrum, Finset.sum_range_succ]; norm_num

/-- C75 / C73 on a concrete call. -/
example (g : Rng) : ∃ s, mrw 2 1024 (1 / 2) (1 / 5) 1024 1 "cme" (none, none) g = .ok s :=
  (C73_mrw (by norm_num) (by norm_num) g).1.mpr ⟨⟨by norm_num, by norm_num⟩, by norm_num⟩

/-- C76 on a concrete call. -/
example : ∃ x, skewnessConvolution ([fun _ => 1, fun _ => 2, fun _ => 3, fun _ => 4] : RArr 1) 1 1 1 1 = .ok x ∧
    (x.getD 1 fun _ => 0) 0 = 3 / 1 + 2 / 2 := by
  obtain ⟨x, hx, -, h⟩ := C76_causal_convolution (N := 2) (by norm_num) ([fun _ => 1, fun _ => 2, fun _ => 3, fun _ => 4] : RArr 1) rfl 1 1 1 1
  refine ⟨x, hx, ?_⟩
  rw [h 1 (by norm_num) 0, show Icc 1 2 = ({1, 2} : Finset ℕ) from rfl, sum_pair (by norm_num)]
  norm_num

end

end MFA
