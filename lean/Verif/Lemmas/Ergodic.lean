import Verif.Lemmas.Gebelein
import Verif.Lemmas.Wick
import Mathlib.Probability.Moments.Variance

/-! The mean of an even function of weakly dependent Gaussian variables. -/

namespace MFA

open Classical Finset MeasureTheory ProbabilityTheory

noncomputable section

variable {Ω : Type*} [MeasurableSpace Ω] {μ : Measure Ω}

theorem mean_even_variance {ι : Type*} (K : Finset ι) (hK : K.Nonempty) {X : ι → Ω → ℝ} {V : ℝ} (hV0 : 0 < V)
    (hg : ∀ i ∈ K, ∀ k ∈ K, HasGaussianLaw (fun ω (a : Fin 2) => (![X i, X k] a) ω) μ) (h0 : ∀ i ∈ K, ∫ ω, X i ω ∂μ = 0)
    (hV : ∀ i ∈ K, ∫ ω, X i ω * X i ω ∂μ = V) {f : ℝ → ℝ} (hf : Measurable f) (he : ∀ x, f (-x) = f x)
    (hi : Integrable (fun x => f x ^ 2) stdG) :
    Integrable (fun ω => (∑ i ∈ K, f (X i ω / √V)) / K.card) μ ∧ ∫ ω, (∑ i ∈ K, f (X i ω / √V)) / K.card ∂μ = ∫ x, f x ∂stdG ∧
    Integrable (fun ω => ((∑ i ∈ K, f (X i ω / √V)) / K.card - ∫ x, f x ∂stdG) ^ 2) μ ∧
    ∫ ω, ((∑ i ∈ K, f (X i ω / √V)) / K.card - ∫ x, f x ∂stdG) ^ 2 ∂μ ≤
      8 * (∫ x, f x ^ 2 ∂stdG) * (∑ i ∈ K, ∑ k ∈ K, ((∫ ω, X i ω * X k ω ∂μ) / V) ^ 2) / (K.card : ℝ) ^ 2 := by
  have hn : (K.card : ℝ) ≠ 0 := by exact_mod_cast (Finset.card_pos.2 hK).ne'
  have hs : √V * √V = V := Real.mul_self_sqrt hV0.le
  have hw : ∀ i ∈ K, ∀ k ∈ K, Integrable (fun ω => f (X i ω / √V)) μ ∧ ∫ ω, f (X i ω / √V) ∂μ = ∫ x, f x ∂stdG ∧
      Integrable (fun ω => f (X i ω / √V) * f (X k ω / √V)) μ ∧
      ∫ ω, f (X i ω / √V) * f (X k ω / √V) ∂μ ≤ (∫ x, f x ∂stdG) ^ 2 + 8 * ((∫ ω, X i ω * X k ω ∂μ) / V) ^ 2 * ∫ x, f x ^ 2 ∂stdG := by
    intro i hi' k hk'
    have hpair : HasGaussianLaw (fun ω => (X i ω / √V, X k ω / √V)) μ := by
      have := (hg i hi' k hk').map_fun (((√V)⁻¹ • ContinuousLinearMap.proj (R := ℝ) (φ := fun _ : Fin 2 => ℝ) 0).prod
        ((√V)⁻¹ • ContinuousLinearMap.proj (R := ℝ) (φ := fun _ : Fin 2 => ℝ) 1))
      have e : (fun ω => (X i ω / √V, X k ω / √V)) = fun ω => (((√V)⁻¹ • ContinuousLinearMap.proj (R := ℝ) (φ := fun _ : Fin 2 => ℝ) 0).prod
        ((√V)⁻¹ • ContinuousLinearMap.proj (R := ℝ) (φ := fun _ : Fin 2 => ℝ) 1)) (fun a : Fin 2 => (![X i, X k] a) ω) := by
        funext ω
        simp [div_eq_inv_mul]
      rw [e]; exact this
    have m : ∀ i ∈ K, ∫ ω, X i ω / √V ∂μ = 0 := fun i hi => by rw [integral_div, h0 i hi, zero_div]
    have v : ∀ i ∈ K, ∫ ω, (X i ω / √V) ^ 2 ∂μ = 1 := fun i hi => by
      have e : (fun ω => (X i ω / √V) ^ 2) = fun ω => X i ω * X i ω / V := by
        funext ω; rw [div_pow, sq (√V), hs, sq]
      rw [e, integral_div, hV i hi, div_self hV0.ne']
    obtain ⟨a1, a2, a3, a4⟩ := gebelein hpair (m i hi') (m k hk') (v i hi') (v k hk') hf he hi
    refine ⟨a1, a2, a3, ?_⟩
    have e : ∫ ω, X i ω / √V * (X k ω / √V) ∂μ = (∫ ω, X i ω * X k ω ∂μ) / V := by
      rw [← integral_div]; congr 1; funext ω; rw [div_mul_div_comm, hs]
    rw [e] at a4
    have := (abs_le.1 a4).2
    linarith
  obtain ⟨i₀, hi₀⟩ := hK
  have hp : IsProbabilityMeasure μ := (hg i₀ hi₀ i₀ hi₀).isProbabilityMeasure
  obtain ⟨m, hm⟩ : ∃ m, m = ∫ x, f x ∂stdG := ⟨_, rfl⟩
  rw [← hm] at hw ⊢
  have hsq : ∀ i ∈ K, Integrable (fun ω => f (X i ω / √V)) μ := fun i hi => (hw i hi i hi).1
  have hmean : ∫ ω, (∑ i ∈ K, f (X i ω / √V)) / K.card ∂μ = m := by
    rw [integral_div, integral_finsetSum _ hsq, sum_congr rfl (fun i hi => (hw i hi i hi).2.1), sum_const, nsmul_eq_mul]; field_simp
  have hI : Integrable (fun ω => (∑ i ∈ K, f (X i ω / √V)) / (K.card : ℝ)) μ := (integrable_finsetSum _ hsq).div_const _
  have e2 : (fun ω => ((∑ i ∈ K, f (X i ω / √V)) / K.card - m) ^ 2) = fun ω =>
      (∑ i ∈ K, ∑ k ∈ K, f (X i ω / √V) * f (X k ω / √V)) / (K.card : ℝ) ^ 2 - 2 * m * ((∑ i ∈ K, f (X i ω / √V)) / K.card) + m ^ 2 := by
    funext ω
    rw [← sum_mul_sum]; field_simp; ring
  have A1 : Integrable (fun ω => (∑ i ∈ K, ∑ k ∈ K, f (X i ω / √V) * f (X k ω / √V)) / (K.card : ℝ) ^ 2) μ :=
    (integrable_finsetSum _ fun i hi => integrable_finsetSum _ fun k hk => (hw i hi k hk).2.2.1).div_const _
  have A2 : Integrable (fun ω => 2 * m * ((∑ i ∈ K, f (X i ω / √V)) / K.card)) μ := hI.const_mul _
  have A12 : Integrable (fun ω => (∑ i ∈ K, ∑ k ∈ K, f (X i ω / √V) * f (X k ω / √V)) / (K.card : ℝ) ^ 2 -
    2 * m * ((∑ i ∈ K, f (X i ω / √V)) / K.card)) μ := A1.sub A2
  refine ⟨hI, hmean, by rw [e2]; exact A12.add (integrable_const _), ?_⟩
  rw [e2, integral_add A12 (integrable_const _), integral_sub A1 A2, integral_const_mul, hmean, integral_div,
    integral_finsetSum _ fun i hi => integrable_finsetSum _ fun k hk => (hw i hi k hk).2.2.1]
  have e3 : ∀ i ∈ K, ∫ ω, ∑ k ∈ K, f (X i ω / √V) * f (X k ω / √V) ∂μ ≤
      K.card * m ^ 2 + 8 * (∫ x, f x ^ 2 ∂stdG) * ∑ k ∈ K, ((∫ ω, X i ω * X k ω ∂μ) / V) ^ 2 := by
    intro i hi'
    rw [integral_finsetSum _ fun k hk => (hw i hi' k hk).2.2.1]
    refine (sum_le_sum fun k hk => (hw i hi' k hk).2.2.2).trans (le_of_eq ?_)
    rw [sum_add_distrib, sum_const, nsmul_eq_mul, ← sum_mul, ← mul_sum]
    ring
  have h5 := sum_le_sum e3
  rw [sum_add_distrib, sum_const, nsmul_eq_mul, ← mul_sum] at h5
  simp only [integral_const, probReal_univ, one_smul]
  have hn2 : 0 < (K.card : ℝ) ^ 2 := by positivity
  have h6 := div_le_div_of_nonneg_right h5 hn2.le
  rw [add_div] at h6
  have e4 : (K.card : ℝ) * (K.card * m ^ 2) / (K.card : ℝ) ^ 2 = m ^ 2 := by field_simp
  rw [e4] at h6
  linarith

/-- Chebyshev's inequality from a mean square error. -/
theorem chebyshev [IsProbabilityMeasure μ] {S : Ω → ℝ} {m B ε : ℝ} (hI : Integrable (fun ω => (S ω - m) ^ 2) μ)
    (hB : ∫ ω, (S ω - m) ^ 2 ∂μ ≤ B) (he : 0 < ε) : μ {ω | ε ≤ |S ω - m|} ≤ ENNReal.ofReal (B / ε ^ 2) := by
  have h := mul_meas_ge_le_integral_of_nonneg (μ := μ) (Filter.Eventually.of_forall fun ω => sq_nonneg (S ω - m)) hI (ε ^ 2)
  have hset : {ω | ε ≤ |S ω - m|} = {ω | ε ^ 2 ≤ (S ω - m) ^ 2} := by
    ext ω
    simp only [Set.mem_setOf_eq]
    rw [← sq_abs (S ω - m)]
    exact ⟨fun h => pow_le_pow_left₀ he.le h 2, fun h => le_of_sq_le_sq h (abs_nonneg _)⟩
  rw [hset, ← ofReal_measureReal]
  refine ENNReal.ofReal_le_ofReal ?_
  rw [le_div_iff₀ (by positivity), mul_comm]
  exact h.trans hB

end

end MFA
