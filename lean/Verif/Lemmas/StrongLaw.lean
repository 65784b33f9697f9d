import Verif.Lemmas.Ergodic
import Mathlib.Analysis.SpecificLimits.FloorPow
import Mathlib.Analysis.PSeries

/-! A strong law of large numbers for means over growing sets of nonnegative variables, when the variance is at most inverse to the number. -/

namespace MFA

open Classical Finset MeasureTheory ProbabilityTheory Filter Topology

noncomputable section

variable {Ω : Type*} [MeasurableSpace Ω] {μ : Measure Ω}

/-- Borel-Cantelli: if events have probabilities at most `C / n^2` from some rank on, almost surely only finitely many occur. -/
theorem eventually_not_of_rate {s : ℕ → Set Ω} {C : ℝ} [IsProbabilityMeasure μ] (h : ∀ᶠ n in atTop, μ (s n) ≤ ENNReal.ofReal (C / (n : ℝ) ^ 2)) :
    ∀ᵐ ω ∂μ, ∀ᶠ n in atTop, ω ∉ s n := by
  obtain ⟨K, hK⟩ := eventually_atTop.1 h
  have hs : Summable fun n : ℕ => |C| / (n : ℝ) ^ 2 := by
    have := (Real.summable_one_div_nat_pow (p := 2)).2 (by norm_num)
    refine (this.mul_left |C|).congr fun n => ?_
    ring
  have hfin : ∑' n, μ (s (n + K)) ≠ ⊤ := by
    have h1 : ∑' n, μ (s (n + K)) ≤ ∑' n, ENNReal.ofReal (|C| / ((n + K : ℕ) : ℝ) ^ 2) := by
      refine ENNReal.tsum_le_tsum fun n => (hK (n + K) (by omega)).trans (ENNReal.ofReal_le_ofReal ?_)
      exact div_le_div_of_nonneg_right (le_abs_self C) (by positivity)
    refine ne_top_of_le_ne_top ?_ h1
    have hs' : Summable fun n : ℕ => |C| / ((n + K : ℕ) : ℝ) ^ 2 := (summable_nat_add_iff K).2 hs
    rw [← ENNReal.ofReal_tsum_of_nonneg (fun n => by positivity) hs']
    exact ENNReal.ofReal_ne_top
  filter_upwards [ae_eventually_notMem hfin] with ω hω
  obtain ⟨n₀, hn₀⟩ := eventually_atTop.1 hω
  refine eventually_atTop.2 ⟨n₀ + K, fun n hn => ?_⟩
  have := hn₀ (n - K) (by omega)
  rwa [show n - K + K = n by omega] at this

/-- **Strong law**: the means over growing sets of nonnegative variables converge almost surely. -/
theorem strong_law [IsProbabilityMeasure μ] {Z : ℕ → Ω → ℝ} (hZ : ∀ k ω, 0 ≤ Z k ω) {I : ℕ → Finset ℕ} (hI : Monotone I) {a m D : ℝ} (ha : 0 < a)
    (hD : 0 ≤ D) (hcard : Tendsto (fun N => ((I N).card : ℝ) / N) atTop (𝓝 a))
    (hvar : ∀ᶠ N in atTop, Integrable (fun ω => ((∑ k ∈ I N, Z k ω) / (I N).card - m) ^ 2) μ ∧
      ∫ ω, ((∑ k ∈ I N, Z k ω) / (I N).card - m) ^ 2 ∂μ ≤ D / (I N).card) :
    ∀ᵐ ω ∂μ, Tendsto (fun N => (∑ k ∈ I N, Z k ω) / (I N).card) atTop (𝓝 m) := by
  have hhalf : ∀ᶠ N : ℕ in atTop, a / 2 * N ≤ (I N).card ∧ 0 < N := by
    filter_upwards [hcard.eventually_const_le (show a / 2 < a by linarith), eventually_gt_atTop 0] with N hN h0
    rw [le_div_iff₀ (by exact_mod_cast h0)] at hN
    exact ⟨hN, h0⟩
  have hsq : Tendsto (fun n : ℕ => n ^ 2) atTop atTop := tendsto_pow_atTop (by norm_num)
  -- along the squares
  have hsub : ∀ᵐ ω ∂μ, Tendsto (fun n : ℕ => (∑ k ∈ I (n ^ 2), Z k ω) / (I (n ^ 2)).card) atTop (𝓝 m) := by
    have hall : ∀ i : ℕ, ∀ᵐ ω ∂μ, ∀ᶠ n : ℕ in atTop, ω ∉ {ω | 1 / ((i : ℝ) + 1) ≤ |(∑ k ∈ I (n ^ 2), Z k ω) / (I (n ^ 2)).card - m|} := by
      intro i
      have hη : (0:ℝ) < 1 / ((i : ℝ) + 1) := by positivity
      refine eventually_not_of_rate (C := D / (a / 2) / (1 / ((i : ℝ) + 1)) ^ 2) ?_
      filter_upwards [hsq.eventually hvar, hsq.eventually hhalf] with n hn hn2
      refine (chebyshev hn.1 hn.2 hη).trans (ENNReal.ofReal_le_ofReal ?_)
      have h3 := hn2.1
      have h4 : (0:ℝ) < ((n ^ 2 : ℕ) : ℝ) := by exact_mod_cast hn2.2
      have h5 : 0 < a / 2 * ((n ^ 2 : ℕ) : ℝ) := by positivity
      have h6 : D / ((I (n ^ 2)).card : ℝ) ≤ D / (a / 2 * ((n ^ 2 : ℕ) : ℝ)) := div_le_div_of_nonneg_left hD h5 h3
      refine (div_le_div_of_nonneg_right h6 (by positivity)).trans (le_of_eq ?_)
      push_cast
      push_cast at h4
      field_simp
    filter_upwards [ae_all_iff.2 hall] with ω hω
    rw [Metric.tendsto_nhds]
    intro e he
    obtain ⟨i, hi⟩ := exists_nat_one_div_lt he
    filter_upwards [hω i] with n hn
    rw [Real.dist_eq]
    have : |(∑ k ∈ I (n ^ 2), Z k ω) / (I (n ^ 2)).card - m| < 1 / ((i : ℝ) + 1) := not_le.1 hn
    exact this.trans hi
  filter_upwards [hsub] with ω hω
  have hmono : Monotone fun N => ∑ k ∈ I N, Z k ω := fun N N' h => sum_le_sum_of_subset_of_nonneg (hI h) fun k _ _ => hZ k ω
  have hlim : Tendsto (fun N : ℕ => (∑ k ∈ I N, Z k ω) / (N : ℝ)) atTop (𝓝 (m * a)) := by
    refine tendsto_div_of_monotone_of_exists_subseq_tendsto_div _ _ hmono fun b hb => ⟨fun n => n ^ 2, ?_, hsq, ?_⟩
    · obtain ⟨K, hK⟩ := exists_nat_gt (3 / (b - 1))
      filter_upwards [eventually_ge_atTop (K + 1)] with n hn
      have h1 : (K : ℝ) + 1 ≤ n := by exact_mod_cast hn
      have hb1 : 0 < b - 1 := by linarith
      rw [div_lt_iff₀ hb1] at hK
      have hK0 : (0:ℝ) ≤ K := by positivity
      push_cast
      have h2 : 3 ≤ (n : ℝ) * (b - 1) := by nlinarith
      nlinarith
    · have h1 := hω.mul (hcard.comp hsq)
      refine h1.congr' ?_
      filter_upwards [hsq.eventually hhalf] with n hn
      have h4 : (0:ℝ) < ((n ^ 2 : ℕ) : ℝ) := by exact_mod_cast hn.2
      have h5 : (0:ℝ) < ((I (n ^ 2)).card : ℝ) := lt_of_lt_of_le (by positivity) hn.1
      simp only [Function.comp]
      field_simp
  have h1 := hlim.div hcard ha.ne'
  rw [mul_div_assoc, div_self ha.ne', mul_one] at h1
  refine h1.congr' ?_
  filter_upwards [hhalf] with N hN
  have h4 : (0:ℝ) < (N : ℝ) := by exact_mod_cast hN.2
  have h5 : (0:ℝ) < ((I N).card : ℝ) := lt_of_lt_of_le (by positivity) hN.1
  show (∑ k ∈ I N, Z k ω) / (N : ℝ) / (((I N).card : ℝ) / N) = _
  field_simp

end

end MFA
