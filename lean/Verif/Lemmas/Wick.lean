import Verif.Props.SimulMrwLaw

/-! Fourth moments of Gaussian pairs, and the variance of a mean of squares. -/

namespace MFA

open Classical Finset MeasureTheory ProbabilityTheory

noncomputable section

variable {Ω : Type*} [MeasurableSpace Ω] {μ : Measure Ω}

theorem gaussian_pow_integrable {X : Ω → ℝ} (h : HasGaussianLaw X μ) : Integrable (fun ω => X ω ^ 4) μ := by
  have hp := h.isProbabilityMeasure
  have := (h.memLp (p := 4) (by norm_num)).integrable_norm_pow (by norm_num)
  refine this.congr (Filter.Eventually.of_forall fun ω => ?_)
  simp only [Real.norm_eq_abs]
  show |X ω| ^ 4 = X ω ^ 4
  rw [show (4:ℕ) = 2 * 2 from rfl, pow_mul, sq_abs, ← pow_mul]

theorem gaussian_fourth_moment {X : Ω → ℝ} (h : HasGaussianLaw X μ) (h0 : ∫ ω, X ω ∂μ = 0) :
    ∫ ω, X ω ^ 4 ∂μ = 3 * (∫ ω, X ω ^ 2 ∂μ) ^ 2 := by
  have hp := h.isProbabilityMeasure
  have e := h.map_eq_gaussianReal
  rw [h0] at e
  have hv : Var[X; μ] = ∫ ω, X ω ^ 2 ∂μ := by
    rw [variance_eq_sub h.memLp_two, h0]; simp
  have h4 : ∫ ω, X ω ^ 4 ∂μ = ∫ y, y ^ 4 ∂(μ.map X) := by
    rw [integral_map h.aemeasurable (by fun_prop)]
  rw [h4, e, gaussian_fourth, hv, Real.coe_toNNReal _ (integral_nonneg fun ω => sq_nonneg _)]

/-- Isserlis' formula for two variables. -/
theorem isserlis {X : Fin 2 → Ω → ℝ} (h : HasGaussianLaw (fun ω i => X i ω) μ) (h0 : ∀ i, ∫ ω, X i ω ∂μ = 0) :
    Integrable (fun ω => X 0 ω ^ 2 * X 1 ω ^ 2) μ ∧
    ∫ ω, X 0 ω ^ 2 * X 1 ω ^ 2 ∂μ = (∫ ω, X 0 ω ^ 2 ∂μ) * (∫ ω, X 1 ω ^ 2 ∂μ) + 2 * (∫ ω, X 0 ω * X 1 ω ∂μ) ^ 2 := by
  have hp := h.isProbabilityMeasure
  have lin : ∀ a b : ℝ, HasGaussianLaw (fun ω => a * X 0 ω + b * X 1 ω) μ := by
    intro a b
    have := h.map_fun (a • ContinuousLinearMap.proj (R := ℝ) (φ := fun _ : Fin 2 => ℝ) 0 +
      b • ContinuousLinearMap.proj (R := ℝ) (φ := fun _ : Fin 2 => ℝ) 1)
    exact this
  have g0 : HasGaussianLaw (X 0) μ := by
    have := lin 1 0
    simpa using this
  have g1 : HasGaussianLaw (X 1) μ := by
    have := lin 0 1
    simpa using this
  have i0 := g0.memLp_two.integrable_sq
  have i1 := g1.memLp_two.integrable_sq
  have i01 : Integrable (fun ω => X 0 ω * X 1 ω) μ := g0.memLp_two.integrable_mul g1.memLp_two
  have f0 := gaussian_pow_integrable g0
  have f1 := gaussian_pow_integrable g1
  have hs := gaussian_pow_integrable (lin 1 1)
  have hd := gaussian_pow_integrable (lin 1 (-1))
  have e : (fun ω => X 0 ω ^ 2 * X 1 ω ^ 2) = fun ω => (1 / 12) * ((1 * X 0 ω + 1 * X 1 ω) ^ 4 + (1 * X 0 ω + -1 * X 1 ω) ^ 4) -
      (1 / 6) * (X 0 ω ^ 4 + X 1 ω ^ 4) := by funext ω; ring
  have I1 : Integrable (fun ω => (1 / 12) * ((1 * X 0 ω + 1 * X 1 ω) ^ 4 + (1 * X 0 ω + -1 * X 1 ω) ^ 4)) μ := (hs.add hd).const_mul _
  have I2 : Integrable (fun ω => (1 / 6) * (X 0 ω ^ 4 + X 1 ω ^ 4)) μ := (f0.add f1).const_mul _
  refine ⟨by rw [e]; exact I1.sub I2, ?_⟩
  have m : ∀ a b : ℝ, ∫ ω, (a * X 0 ω + b * X 1 ω) ∂μ = 0 := by
    intro a b
    rw [integral_add (g0.integrable.const_mul a) (g1.integrable.const_mul b), integral_const_mul, integral_const_mul, h0, h0]; simp
  have sq : ∀ a b : ℝ, ∫ ω, (a * X 0 ω + b * X 1 ω) ^ 2 ∂μ =
      a ^ 2 * (∫ ω, X 0 ω ^ 2 ∂μ) + 2 * a * b * (∫ ω, X 0 ω * X 1 ω ∂μ) + b ^ 2 * (∫ ω, X 1 ω ^ 2 ∂μ) := by
    intro a b
    have e2 : (fun ω => (a * X 0 ω + b * X 1 ω) ^ 2) =
      fun ω => a ^ 2 * X 0 ω ^ 2 + 2 * a * b * (X 0 ω * X 1 ω) + b ^ 2 * X 1 ω ^ 2 := by funext ω; ring
    have J1 : Integrable (fun ω => a ^ 2 * X 0 ω ^ 2) μ := i0.const_mul _
    have J2 : Integrable (fun ω => 2 * a * b * (X 0 ω * X 1 ω)) μ := i01.const_mul _
    have J3 : Integrable (fun ω => b ^ 2 * X 1 ω ^ 2) μ := i1.const_mul _
    have J12 : Integrable (fun ω => a ^ 2 * X 0 ω ^ 2 + 2 * a * b * (X 0 ω * X 1 ω)) μ := J1.add J2
    rw [e2, integral_add J12 J3, integral_add J1 J2, integral_const_mul, integral_const_mul, integral_const_mul]
  rw [e, integral_sub I1 I2, integral_const_mul, integral_const_mul, integral_add hs hd, integral_add f0 f1,
    gaussian_fourth_moment (lin 1 1) (m 1 1), gaussian_fourth_moment (lin 1 (-1)) (m 1 (-1)),
    gaussian_fourth_moment g0 (h0 0), gaussian_fourth_moment g1 (h0 1), sq, sq]
  ring

/-- The variance of a mean of squares of jointly Gaussian centred variables. -/
theorem mean_square_variance {ι : Type*} (K : Finset ι) (hK : K.Nonempty) {X : ι → Ω → ℝ} {V : ℝ}
    (hg : ∀ i ∈ K, ∀ k ∈ K, HasGaussianLaw (fun ω (a : Fin 2) => (![X i, X k] a) ω) μ) (h0 : ∀ i ∈ K, ∫ ω, X i ω ∂μ = 0)
    (hV : ∀ i ∈ K, ∫ ω, X i ω * X i ω ∂μ = V) :
    Integrable (fun ω => (∑ i ∈ K, X i ω ^ 2) / K.card) μ ∧ ∫ ω, (∑ i ∈ K, X i ω ^ 2) / K.card ∂μ = V ∧
    Integrable (fun ω => ((∑ i ∈ K, X i ω ^ 2) / K.card - V) ^ 2) μ ∧
    ∫ ω, ((∑ i ∈ K, X i ω ^ 2) / K.card - V) ^ 2 ∂μ = 2 * (∑ i ∈ K, ∑ k ∈ K, (∫ ω, X i ω * X k ω ∂μ) ^ 2) / (K.card : ℝ) ^ 2 := by
  have hn : (K.card : ℝ) ≠ 0 := by exact_mod_cast (Finset.card_pos.2 hK).ne'
  have hw : ∀ i ∈ K, ∀ k ∈ K, Integrable (fun ω => X i ω ^ 2 * X k ω ^ 2) μ ∧
      ∫ ω, X i ω ^ 2 * X k ω ^ 2 ∂μ = V * V + 2 * (∫ ω, X i ω * X k ω ∂μ) ^ 2 := by
    intro i hi k hk
    have h2 := isserlis (hg i hi k hk) (by intro a; fin_cases a; exacts [h0 i hi, h0 k hk])
    simp only [Matrix.cons_val_zero, Matrix.cons_val_one] at h2
    refine ⟨h2.1, h2.2.trans ?_⟩
    have : ∀ i ∈ K, ∫ ω, X i ω ^ 2 ∂μ = V := fun i hi => by rw [← hV i hi]; exact integral_congr_ae (Filter.Eventually.of_forall fun ω => sq _)
    rw [this i hi, this k hk]
  obtain ⟨i₀, hi₀⟩ := hK
  have hp : IsProbabilityMeasure μ := (hg i₀ hi₀ i₀ hi₀).isProbabilityMeasure
  have hsq : ∀ i ∈ K, Integrable (fun ω => X i ω ^ 2) μ := by
    intro i hi
    have := (hg i hi i hi).map_fun (ContinuousLinearMap.proj (R := ℝ) (φ := fun _ : Fin 2 => ℝ) 0)
    exact (show HasGaussianLaw (X i) μ from this).memLp_two.integrable_sq
  have hmean : ∫ ω, (∑ i ∈ K, X i ω ^ 2) / K.card ∂μ = V := by
    rw [integral_div, integral_finsetSum _ hsq]
    have : ∀ i ∈ K, ∫ ω, X i ω ^ 2 ∂μ = V := fun i hi => by rw [← hV i hi]; exact integral_congr_ae (Filter.Eventually.of_forall fun ω => sq _)
    rw [sum_congr rfl this, sum_const, nsmul_eq_mul]; field_simp
  have hI : Integrable (fun ω => (∑ i ∈ K, X i ω ^ 2) / (K.card : ℝ)) μ := (integrable_finsetSum _ hsq).div_const _
  have e2 : (fun ω => ((∑ i ∈ K, X i ω ^ 2) / K.card - V) ^ 2) = fun ω =>
      (∑ i ∈ K, ∑ k ∈ K, X i ω ^ 2 * X k ω ^ 2) / (K.card : ℝ) ^ 2 - 2 * V * ((∑ i ∈ K, X i ω ^ 2) / K.card) + V ^ 2 := by
    funext ω
    rw [← sum_mul_sum]; field_simp; ring
  have A1 : Integrable (fun ω => (∑ i ∈ K, ∑ k ∈ K, X i ω ^ 2 * X k ω ^ 2) / (K.card : ℝ) ^ 2) μ :=
    (integrable_finsetSum _ fun i hi => integrable_finsetSum _ fun k hk => (hw i hi k hk).1).div_const _
  have A2 : Integrable (fun ω => 2 * V * ((∑ i ∈ K, X i ω ^ 2) / K.card)) μ := hI.const_mul _
  have A12 : Integrable (fun ω => (∑ i ∈ K, ∑ k ∈ K, X i ω ^ 2 * X k ω ^ 2) / (K.card : ℝ) ^ 2 - 2 * V * ((∑ i ∈ K, X i ω ^ 2) / K.card)) μ :=
    A1.sub A2
  refine ⟨hI, hmean, by rw [e2]; exact A12.add (integrable_const _), ?_⟩
  rw [e2, integral_add A12 (integrable_const _), integral_sub A1 A2, integral_const_mul, hmean, integral_div,
    integral_finsetSum _ fun i hi => integrable_finsetSum _ fun k hk => (hw i hi k hk).1]
  have e3 : ∀ i ∈ K, ∫ ω, ∑ k ∈ K, X i ω ^ 2 * X k ω ^ 2 ∂μ = K.card * (V * V) + 2 * ∑ k ∈ K, (∫ ω, X i ω * X k ω ∂μ) ^ 2 := by
    intro i hi
    rw [integral_finsetSum _ fun k hk => (hw i hi k hk).1, sum_congr rfl fun k hk => (hw i hi k hk).2, sum_add_distrib, sum_const,
      nsmul_eq_mul, mul_sum]
  rw [sum_congr rfl e3, sum_add_distrib, sum_const, nsmul_eq_mul, ← mul_sum]
  simp only [integral_const, probReal_univ, one_smul]
  field_simp
  ring

end

end MFA
