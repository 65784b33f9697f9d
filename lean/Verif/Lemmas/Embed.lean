import Verif.Lemmas.Dft
import Verif.Spec.Noise
import Mathlib.Analysis.SpecialFunctions.Pow.Real
import Mathlib.MeasureTheory.Integral.Bochner.Basic

/-!
# The circulant embedding and linear functionals of white noise
-/

namespace MFA

open Classical Finset MeasureTheory

noncomputable section

variable {R : ℕ}

theorem pySlice_inner (cov : List ℝ) (h : 2 ≤ cov.length) : pySlice cov 1 (-1) = (cov.take (cov.length - 1)).drop 1 := by
  unfold pySlice
  have h1 : sliceBound cov.length (-1) = cov.length - 1 := by unfold sliceBound; simp; omega
  have h2 : sliceBound cov.length 1 = 1 := by unfold sliceBound; simp; omega
  rw [h1, h2]

theorem embed_length (cov : List ℝ) (h : 2 ≤ cov.length) : (embed cov).length = 2 * cov.length - 2 := by
  rw [embed, pySlice_inner cov h]; simp; omega

/-- The embedding is the even periodic extension. -/
theorem embed_getD (cov : List ℝ) (h : 2 ≤ cov.length) (i : ℕ) (hi : i < 2 * cov.length - 2) :
    (embed cov).getD i 0 = cov.getD (min i (2 * cov.length - 2 - i)) 0 := by
  rw [embed, pySlice_inner cov h]
  by_cases hc : i < cov.length
  · rw [List.getD_eq_getElem?_getD, List.getElem?_append_left hc, List.getD_eq_getElem?_getD]; congr 2; omega
  · rw [List.getD_eq_getElem?_getD, List.getElem?_append_right (by omega), List.getElem?_reverse (by simp; omega)]
    rw [List.getD_eq_getElem?_getD]
    congr 1
    simp only [List.length_drop, List.length_take, List.getElem?_drop, List.getElem?_take]
    rw [if_pos (by omega)]
    congr 1; omega

/-- The spectrum of the embedding as a cosine sum. -/
def cosSpectrum (cov : List ℝ) (k : ℕ) : ℝ :=
  ∑ i ∈ range (2 * cov.length - 2), cov.getD (min i (2 * cov.length - 2 - i)) 0
    * Real.cos (2 * Real.pi * ((k : ℝ) * i) / ((2 * cov.length - 2 : ℕ) : ℝ))

theorem embedSpectrum_length (cov : List ℝ) (h : 2 ≤ cov.length) :
    (embedSpectrum cov).length = 2 * cov.length - 2 := by
  simp [embedSpectrum, embed_length cov h]

theorem dft_embed (cov : List ℝ) (h : 2 ≤ cov.length) (k : ℕ) :
    dft ((embed cov).map Complex.ofReal) k = (cosSpectrum cov k : ℂ) := by
  set M := 2 * cov.length - 2 with hM
  have hM0 : M ≠ 0 := by omega
  have hlen : ((embed cov).map Complex.ofReal).length = M := by rw [List.length_map, embed_length cov h]
  have hget : ∀ i, ((embed cov).map Complex.ofReal).getD i 0 = ((embed cov).getD i 0 : ℂ) := by
    intro i
    rw [List.getD_eq_getElem?_getD, List.getD_eq_getElem?_getD, List.getElem?_map]
    cases (embed cov)[i]? <;> simp
  have hsym : ∑ i ∈ range M, ((embed cov).getD i 0 : ℂ) * ee M (-((k : ℤ) * i))
      = ∑ i ∈ range M, ((embed cov).getD i 0 : ℂ) * ee M ((k : ℤ) * i) := by
    rw [show M = (M - 1) + 1 by omega, sum_range_succ', sum_range_succ']
    congr 1
    · rw [← sum_range_reflect]
      refine sum_congr rfl fun i hi => ?_
      have hi' : i < M - 1 := by simpa using hi
      rw [show M - 1 + 1 = M by omega]
      rw [embed_getD cov h _ (by omega), embed_getD cov h _ (by omega)]
      rw [show min (M - 1 - 1 - i + 1) (2 * cov.length - 2 - (M - 1 - 1 - i + 1))
        = min (i + 1) (2 * cov.length - 2 - (i + 1)) by omega]
      congr 1
      rw [← ee_periodic hM0 _ (k : ℤ)]
      congr 1
      rw [show M - 1 - 1 - i + 1 = M - (i + 1) by omega, Nat.cast_sub (by omega)]
      push_cast; ring
  rw [dft_eq, hlen]
  simp_rw [hget]
  have hre : ∑ i ∈ range M, ((embed cov).getD i 0 : ℂ) * ee M (-((k : ℤ) * i))
      = ∑ i ∈ range M, ((embed cov).getD i 0 : ℂ) * ((ee M ((k : ℤ) * i)).re : ℂ) := by
    have h2 : (2 : ℂ) * ∑ i ∈ range M, ((embed cov).getD i 0 : ℂ) * ee M (-((k : ℤ) * i))
        = 2 * ∑ i ∈ range M, ((embed cov).getD i 0 : ℂ) * ((ee M ((k : ℤ) * i)).re : ℂ) := by
      rw [two_mul]
      nth_rewrite 2 [hsym]
      rw [← sum_add_distrib, mul_sum]
      refine sum_congr rfl fun i _ => ?_
      rw [← mul_add, ← ee_conj, add_comm, Complex.add_conj]; push_cast; ring
    exact mul_left_cancel₀ two_ne_zero h2
  rw [hre, cosSpectrum]
  push_cast
  refine sum_congr rfl fun i hi => ?_
  rw [embed_getD cov h _ (by simpa using hi), ee_re]
  push_cast; rfl

/-- Inversion in real form: the cosine sum of the spectrum gives the covariance back. -/
theorem spectrum_inversion (cov : List ℝ) (h : 2 ≤ cov.length) (n m : ℕ) (hn : n < cov.length) (hm : m < cov.length) :
    ∑ k ∈ range (2 * cov.length - 2), cosSpectrum cov k
      * Real.cos (2 * Real.pi * ((k : ℝ) * ((n : ℝ) - m)) / ((2 * cov.length - 2 : ℕ) : ℝ))
      = ((2 * cov.length - 2 : ℕ) : ℝ) * cov.getD (Int.natAbs ((n : ℤ) - m)) 0 := by
  wlog hnm : m ≤ n generalizing n m
  · have := this m n hm hn (by omega)
    rw [show ((m : ℤ) - n).natAbs = ((n : ℤ) - m).natAbs by omega] at this
    rw [← this]
    refine sum_congr rfl fun k _ => ?_
    congr 1
    rw [← Real.cos_neg]; congr 1; ring
  set M := 2 * cov.length - 2 with hM
  have hlen : ((embed cov).map Complex.ofReal).length = M := by rw [List.length_map, embed_length cov h]
  have hinv := dft_inversion ((embed cov).map Complex.ofReal) (n - m) (by rw [hlen]; omega)
  rw [hlen] at hinv
  simp_rw [dft_embed cov h] at hinv
  have hre := congrArg Complex.re hinv
  rw [Complex.re_sum] at hre
  simp_rw [Complex.re_ofReal_mul, ee_re] at hre
  have hget : ((embed cov).map Complex.ofReal).getD (n - m) 0 = ((cov.getD (n - m) 0 : ℝ) : ℂ) := by
    rw [List.getD_eq_getElem?_getD, List.getElem?_map]
    have := embed_getD cov h (n - m) (by omega)
    rw [show min (n - m) (2 * cov.length - 2 - (n - m)) = n - m by omega] at this
    rw [← this, List.getD_eq_getElem?_getD]
    cases (embed cov)[n - m]? <;> simp
  rw [hget] at hre
  have : ((M : ℂ) * ((cov.getD (n - m) 0 : ℝ) : ℂ)).re = (M : ℝ) * cov.getD (n - m) 0 := by
    rw [show (M : ℂ) = ((M : ℝ) : ℂ) by push_cast; rfl, ← Complex.ofReal_mul, Complex.ofReal_re]
  rw [this] at hre
  rw [show ((n : ℤ) - m).natAbs = n - m by omega, ← hre]
  refine sum_congr rfl fun k _ => ?_
  congr 2
  rw [Int.cast_mul, Int.cast_natCast, Int.cast_natCast, Nat.cast_sub hnm]

theorem csqrt_normSq (z : ℂ) : Complex.normSq (csqrt z) = ‖z‖ := by
  rw [Complex.normSq_eq_norm_sq, csqrt, show ((1:ℂ) / 2) = ((1 / 2 : ℝ) : ℂ) by push_cast; rfl, Complex.norm_cpow_real,
    ← Real.rpow_natCast, ← Real.rpow_mul (norm_nonneg _)]
  norm_num

/-! ### Linear functionals of white noise -/

variable {Ω : Type*} [MeasurableSpace Ω] {μ : Measure Ω} {g : Ω → ℕ → ℝ}

theorem WhiteNoise.integrable_lin (hg : WhiteNoise μ g) {ι : Type*} (s : Finset ι) (a : ι → ℝ) (φ : ι → ℕ) :
    Integrable (fun ω => ∑ i ∈ s, a i * g ω (φ i)) μ :=
  integrable_finsetSum _ fun i _ => (hg.integrable (φ i)).const_mul _

theorem WhiteNoise.mean_lin (hg : WhiteNoise μ g) {ι : Type*} (s : Finset ι) (a : ι → ℝ) (φ : ι → ℕ) :
    ∫ ω, ∑ i ∈ s, a i * g ω (φ i) ∂μ = 0 := by
  rw [integral_finsetSum _ fun i _ => (hg.integrable (φ i)).const_mul _]
  refine sum_eq_zero fun i _ => ?_
  rw [integral_const_mul, hg.mean, mul_zero]

theorem mul_lin {ι κ : Type*} (s : Finset ι) (t : Finset κ) (a : ι → ℝ) (b : κ → ℝ) (u : ι → ℝ) (v : κ → ℝ) :
    (∑ i ∈ s, a i * u i) * (∑ k ∈ t, b k * v k) = ∑ i ∈ s, ∑ k ∈ t, a i * b k * (u i * v k) := by
  rw [sum_mul_sum]
  refine sum_congr rfl fun i _ => sum_congr rfl fun k _ => by ring

theorem WhiteNoise.integrable_mul_lin (hg : WhiteNoise μ g) {ι κ : Type*} (s : Finset ι) (t : Finset κ) (a : ι → ℝ)
    (b : κ → ℝ) (φ : ι → ℕ) (ψ : κ → ℕ) :
    Integrable (fun ω => (∑ i ∈ s, a i * g ω (φ i)) * (∑ k ∈ t, b k * g ω (ψ k))) μ := by
  simp_rw [mul_lin]
  exact integrable_finsetSum _ fun i _ => integrable_finsetSum _ fun k _ => (hg.integrable_mul _ _).const_mul _

/-- Covariance of two linear functionals of a white noise. -/
theorem WhiteNoise.cov_lin (hg : WhiteNoise μ g) {ι κ : Type*} (s : Finset ι) (t : Finset κ) (a : ι → ℝ) (b : κ → ℝ)
    (φ : ι → ℕ) (ψ : κ → ℕ) :
    ∫ ω, (∑ i ∈ s, a i * g ω (φ i)) * (∑ k ∈ t, b k * g ω (ψ k)) ∂μ
      = ∑ i ∈ s, ∑ k ∈ t, a i * b k * (if φ i = ψ k then 1 else 0) := by
  simp_rw [mul_lin]
  rw [integral_finsetSum _ fun i _ => integrable_finsetSum _ fun k _ => (hg.integrable_mul _ _).const_mul _]
  refine sum_congr rfl fun i _ => ?_
  rw [integral_finsetSum _ fun k _ => (hg.integrable_mul _ _).const_mul _]
  refine sum_congr rfl fun k _ => ?_
  rw [integral_const_mul, hg.cov]

end

end MFA
