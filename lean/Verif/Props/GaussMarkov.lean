import Verif.Props.Regression
import Verif.Spec.Noise

/-! C93: statistical optimality and stability of `linear_regression`. -/

namespace MFA

open Classical Finset MeasureTheory

noncomputable section

/-- Errors with mean zero, variance `σ2 / nj i`, and uncorrelated: the situation that the weights `nj` are meant for. -/
structure UncorrelatedErrors {Ω : Type*} [MeasurableSpace Ω] (μ : Measure Ω) {n : ℕ} (ε : Fin n → Ω → ℝ) (σ2 : ℝ)
    (nj : Fin n → ℝ) : Prop where
  integrable : ∀ i, Integrable (ε i) μ
  integrable_mul : ∀ i k, Integrable (fun ω => ε i ω * ε k ω) μ
  mean : ∀ i, ∫ ω, ε i ω ∂μ = 0
  cov : ∀ i k, ∫ ω, ε i ω * ε k ω ∂μ = if i = k then σ2 / nj i else 0

variable {n R : ℕ}

section
variable (X N : Fin n → ℝ)

private theorem var_form (hN : ∀ i, 0 < N i) (hD : rD X N ≠ 0) (v : Fin n → ℝ) (h0 : ∑ i, v i = 0)
    (h1 : ∑ i, v i * X i = 1) : ∑ i, v i * rWS X N i * (1 / N i) = rV0 N / rD X N := by
  have : ∀ i, v i * rWS X N i * (1 / N i) = (rV0 N * (v i * X i) - rV1 X N * v i) / rD X N := by
    intro i
    have := (hN i).ne'
    rw [rWS]; field_simp
  simp only [this]
  rw [← Finset.sum_div, Finset.sum_sub_distrib, ← Finset.mul_sum, ← Finset.mul_sum, h0, h1]
  ring

private theorem var_min (hN : ∀ i, 0 < N i) (hD : rD X N ≠ 0) (v : Fin n → ℝ) (h0 : ∑ i, v i = 0)
    (h1 : ∑ i, v i * X i = 1) : ∑ i, rWS X N i ^ 2 * (1 / N i) ≤ ∑ i, v i ^ 2 * (1 / N i) := by
  have e1 := var_form X N hN hD v h0 h1
  have e2 := var_form X N hN hD (rWS X N) (rWS_sum X N hD) (rWS_sum_x X N hD)
  have : 0 ≤ ∑ i, (v i - rWS X N i) ^ 2 * (1 / N i) :=
    Finset.sum_nonneg fun i _ => mul_nonneg (sq_nonneg _) (one_div_nonneg.mpr (hN i).le)
  have h : ∑ i, (v i - rWS X N i) ^ 2 * (1 / N i)
      = ∑ i, v i ^ 2 * (1 / N i) - 2 * ∑ i, v i * rWS X N i * (1 / N i) + ∑ i, rWS X N i * rWS X N i * (1 / N i) := by
    rw [Finset.mul_sum, ← Finset.sum_sub_distrib, ← Finset.sum_add_distrib]
    apply Finset.sum_congr rfl; intros; ring
  have e3 : ∑ i, rWS X N i ^ 2 * (1 / N i) = ∑ i, rWS X N i * rWS X N i * (1 / N i) := by
    apply Finset.sum_congr rfl; intros; ring
  rw [h, e1, e2] at this
  rw [e3, e2]; linarith

end

section
variable {Ω : Type*} [MeasurableSpace Ω] {μ : Measure Ω} {ε : Fin n → Ω → ℝ} {σ2 : ℝ} {nj : Fin n → ℝ}

private theorem mean_comb (h : UncorrelatedErrors μ ε σ2 nj) (v : Fin n → ℝ) :
    Integrable (fun ω => ∑ i, v i * ε i ω) μ ∧ ∫ ω, ∑ i, v i * ε i ω ∂μ = 0 := by
  have hi : ∀ i ∈ (Finset.univ : Finset (Fin n)), Integrable (fun ω => v i * ε i ω) μ :=
    fun i _ => (h.integrable i).const_mul _
  refine ⟨integrable_finsetSum _ hi, ?_⟩
  rw [integral_finsetSum _ hi]
  exact Finset.sum_eq_zero fun i _ => by rw [integral_const_mul, h.mean, mul_zero]

private theorem var_comb (h : UncorrelatedErrors μ ε σ2 nj) (v : Fin n → ℝ) :
    ∫ ω, (∑ i, v i * ε i ω) ^ 2 ∂μ = σ2 * ∑ i, v i ^ 2 * (1 / nj i) := by
  have e : (fun ω => (∑ i, v i * ε i ω) ^ 2) = fun ω => ∑ i, ∑ k, v i * v k * (ε i ω * ε k ω) := by
    funext ω
    rw [pow_two, Finset.sum_mul_sum]
    apply Finset.sum_congr rfl; intros; apply Finset.sum_congr rfl; intros; ring
  have hik : ∀ i, ∀ k ∈ (Finset.univ : Finset (Fin n)), Integrable (fun ω => v i * v k * (ε i ω * ε k ω)) μ :=
    fun i k _ => (h.integrable_mul i k).const_mul _
  rw [e, integral_finsetSum _ fun i _ => integrable_finsetSum _ (hik i), Finset.mul_sum]
  apply Finset.sum_congr rfl; intro i _
  rw [integral_finsetSum _ (hik i)]
  simp only [integral_const_mul, h.cov, mul_ite, mul_zero, Finset.sum_ite_eq, Finset.mem_univ, if_true]
  ring

end

/-- C93 (Gauss–Markov): if the ordinates of realisation `r` are `a x + b` plus uncorrelated centred errors of variance
`σ2 / nj`, then slope and intercept returned by `linear_regression` are unbiased, the variance of the slope is `σ2` times
the variance that the function reports, and no other linear estimate that is right on all lines has a smaller one. -/
theorem C93_gauss_markov {Ω : Type*} [MeasurableSpace Ω] (μ : Measure Ω) [IsProbabilityMeasure μ]
    (x nj : Fin n → Fin R → ℝ) (hn : ∀ i r, 0 < nj i r) (hx : ∀ r, ∃ i i', x i r ≠ x i' r) (r : Fin R)
    (ε : Fin n → Ω → ℝ) (σ2 : ℝ) (hσ : 0 ≤ σ2) (hε : UncorrelatedErrors μ ε σ2 (nj · r)) (a b : ℝ)
    (y : Ω → Fin n → Fin R → ℝ) (hy : ∀ ω i, y ω i r = a * x i r + b + ε i ω) :
    ∃ (A B : Ω → ℝ) (V : ℝ),
      (∀ ω, ∃ g, linearRegression (realArr x) (realArr (y ω)) (.mat (realArr nj)) = .ok g ∧
        g.slope r = Fl.fin (A ω) ∧ g.intercept r = Fl.fin (B ω) ∧ g.var r = Fl.fin V) ∧
      ∫ ω, A ω ∂μ = a ∧ ∫ ω, B ω ∂μ = b ∧ ∫ ω, (A ω - a) ^ 2 ∂μ = σ2 * V ∧
      ∀ v : Fin n → ℝ, (∀ a' b' : ℝ, ∑ i, v i * (a' * x i r + b') = a') →
        σ2 * V ≤ ∫ ω, (∑ i, v i * y ω i r - a) ^ 2 ∂μ := by
  set X := fun i => x i r with hX
  set N := fun i => nj i r with hNd
  have hD : rD X N ≠ 0 := (rD_pos X N (fun i => hn i r) (hx r)).ne'
  have hsplit : ∀ (v : Fin n → ℝ) ω, ∑ i, v i * y ω i r
      = a * ∑ i, v i * X i + b * ∑ i, v i + ∑ i, v i * ε i ω := by
    intro v ω
    rw [Finset.mul_sum, Finset.mul_sum, ← Finset.sum_add_distrib, ← Finset.sum_add_distrib]
    apply Finset.sum_congr rfl; intro i _
    rw [hy]; ring
  have hA : ∀ ω, ∑ i, rWS X N i * y ω i r = a + ∑ i, rWS X N i * ε i ω := by
    intro ω; rw [hsplit, rWS_sum X N hD, rWS_sum_x X N hD]; ring
  have hB : ∀ ω, ∑ i, rWI X N i * y ω i r = b + ∑ i, rWI X N i * ε i ω := by
    intro ω; rw [hsplit, rWI_sum X N hD, rWI_sum_x X N hD]; ring
  refine ⟨fun ω => ∑ i, rWS X N i * y ω i r, fun ω => ∑ i, rWI X N i * y ω i r,
    ∑ i, rWS X N i ^ 2 * (1 / N i), fun ω => ⟨_, by rw [realArr_eq_flArr (y ω), lin_ok], ?_, ?_, ?_⟩, ?_, ?_, ?_, ?_⟩
  · show dotB _ _ = _
    rw [slope_col _ _ _ hD]; simp only [Fl.fin_mul, Fl.sum_fin]
  · show dotB _ _ = _
    rw [inter_col _ _ _ hD]; simp only [Fl.fin_mul, Fl.sum_fin]
  · show lrVar _ _ = _
    rw [lrVar, lrWSlope_fin _ _ hD, finCol, finCol, zipWith_ofFn, List.sum_ofFn]
    simp only [Fl.fin_div (hn _ r).ne', Fl.fin_mul, Fl.sum_fin]
    congr 1; apply Finset.sum_congr rfl; intros; rw [hNd]; ring
  · simp only [hA]
    have := mean_comb hε (rWS X N)
    rw [integral_add (integrable_const _) this.1, this.2]; simp
  · simp only [hB]
    have := mean_comb hε (rWI X N)
    rw [integral_add (integrable_const _) this.1, this.2]; simp
  · simp only [hA, add_sub_cancel_left]
    exact var_comb hε _
  · intro v hv
    have h1 : ∑ i, v i * X i = 1 := by simpa using hv 1 0
    have h0 : ∑ i, v i = 0 := by simpa using hv 0 1
    have : ∀ ω, ∑ i, v i * y ω i r - a = ∑ i, v i * ε i ω := by
      intro ω; rw [hsplit, h0, h1]; ring
    simp only [this]
    rw [var_comb hε]
    exact mul_le_mul_of_nonneg_left (var_min X N (fun i => hn i r) hD v h0 h1) hσ

/-- C93 (stability): a perturbation of the ordinates changes the slope by at most the square root of the reported variance
times the weighted size of the perturbation; the bound is attained. -/
theorem C93_stability (x nj : Fin n → Fin R → ℝ) (hn : ∀ i r, 0 < nj i r) (hx : ∀ r, ∃ i i', x i r ≠ x i' r)
    (y : Fin n → Fin R → ℝ) (r : Fin R) :
    (∀ y' : Fin n → Fin R → ℝ, ∃ (g g' : LinReg R) (A A' V : ℝ),
      linearRegression (realArr x) (realArr y) (.mat (realArr nj)) = .ok g ∧
      linearRegression (realArr x) (realArr y') (.mat (realArr nj)) = .ok g' ∧
      g.slope r = Fl.fin A ∧ g'.slope r = Fl.fin A' ∧ g.var r = Fl.fin V ∧
      (A' - A) ^ 2 ≤ V * ∑ i, nj i r * (y' i r - y i r) ^ 2) ∧
    ∃ (y' : Fin n → Fin R → ℝ) (g g' : LinReg R) (A A' V : ℝ),
      linearRegression (realArr x) (realArr y) (.mat (realArr nj)) = .ok g ∧
      linearRegression (realArr x) (realArr y') (.mat (realArr nj)) = .ok g' ∧
      g.slope r = Fl.fin A ∧ g'.slope r = Fl.fin A' ∧ g.var r = Fl.fin V ∧ A' ≠ A ∧
      (A' - A) ^ 2 = V * ∑ i, nj i r * (y' i r - y i r) ^ 2 := by
  set X := fun i => x i r with hX
  set N := fun i => nj i r with hNd
  have hD : rD X N ≠ 0 := (rD_pos X N (fun i => hn i r) (hx r)).ne'
  have hs : ∀ z : Fin n → Fin R → ℝ, ∃ g : LinReg R,
      linearRegression (realArr x) (realArr z) (.mat (realArr nj)) = .ok g ∧
      g.slope r = Fl.fin (∑ i, rWS X N i * z i r) ∧ g.var r = Fl.fin (∑ i, rWS X N i ^ 2 * (1 / N i)) := by
    intro z
    refine ⟨_, by rw [realArr_eq_flArr z, lin_ok], ?_, ?_⟩
    · show dotB _ _ = _
      rw [slope_col _ _ _ hD]; simp only [Fl.fin_mul, Fl.sum_fin]
    · show lrVar _ _ = _
      rw [lrVar, lrWSlope_fin _ _ hD, finCol, finCol, zipWith_ofFn, List.sum_ofFn]
      simp only [Fl.fin_div (hn _ r).ne', Fl.fin_mul, Fl.sum_fin]
      congr 1; apply Finset.sum_congr rfl; intros; rw [hNd]; ring
  have hsub : ∀ z z' : Fin n → Fin R → ℝ, ∑ i, rWS X N i * z' i r - ∑ i, rWS X N i * z i r
      = ∑ i, rWS X N i * (z' i r - z i r) := by
    intro z z'; rw [← Finset.sum_sub_distrib]; apply Finset.sum_congr rfl; intros; ring
  constructor
  · intro y'
    obtain ⟨g, hg, hgs, hgv⟩ := hs y
    obtain ⟨g', hg', hgs', _⟩ := hs y'
    refine ⟨g, g', _, _, _, hg, hg', hgs, hgs', hgv, ?_⟩
    rw [hsub]
    have hcs := Finset.sum_mul_sq_le_sq_mul_sq Finset.univ (fun i => rWS X N i / Real.sqrt (N i))
      (fun i => Real.sqrt (N i) * (y' i r - y i r))
    have hq : ∀ i, Real.sqrt (N i) ≠ 0 := fun i => (Real.sqrt_pos.mpr (hn i r)).ne'
    have e1 : ∀ i, rWS X N i / Real.sqrt (N i) * (Real.sqrt (N i) * (y' i r - y i r))
        = rWS X N i * (y' i r - y i r) := fun i => by have := hq i; field_simp
    have e2 : ∀ i, (rWS X N i / Real.sqrt (N i)) ^ 2 = rWS X N i ^ 2 * (1 / N i) := fun i => by
      rw [div_pow, Real.sq_sqrt (hn i r).le]; ring
    have e3 : ∀ i, (Real.sqrt (N i) * (y' i r - y i r)) ^ 2 = N i * (y' i r - y i r) ^ 2 := fun i => by
      rw [mul_pow, Real.sq_sqrt (hn i r).le]
    simp only [e1, e2, e3] at hcs
    exact hcs
  · obtain ⟨g, hg, hgs, hgv⟩ := hs y
    let y' : Fin n → Fin R → ℝ := fun i r' => y i r' + rWS X N i / N i
    obtain ⟨g', hg', hgs', _⟩ := hs y'
    have hd : ∀ i, y' i r - y i r = rWS X N i / N i := fun i => by simp [y']
    have hVpos : 0 < ∑ i, rWS X N i ^ 2 * (1 / N i) := by
      have h1 := rWS_sum_x X N hD
      have hex : ∃ i, rWS X N i ≠ 0 := by
        by_contra hc
        push Not at hc
        simp [hc] at h1
      obtain ⟨i, hi⟩ := hex
      refine Finset.sum_pos' (fun k _ => mul_nonneg (sq_nonneg _) (one_div_nonneg.mpr (hn k r).le)) ⟨i, Finset.mem_univ _, ?_⟩
      have := hn i r
      positivity
    have hdiff : ∑ i, rWS X N i * y' i r - ∑ i, rWS X N i * y i r = ∑ i, rWS X N i ^ 2 * (1 / N i) := by
      rw [hsub]; apply Finset.sum_congr rfl; intro i _; rw [hd]; ring
    refine ⟨y', g, g', _, _, _, hg, hg', hgs, hgs', hgv, ?_, ?_⟩
    · intro h
      rw [h, sub_self] at hdiff
      exact hVpos.ne hdiff
    · rw [hdiff, pow_two]
      congr 1
      apply Finset.sum_congr rfl; intro i _
      rw [hd, div_pow]
      have := (hn i r).ne'
      show _ = nj i r * _
      rw [hNd]
      field_simp

/-- The hypotheses of C93 are met, with non-zero errors: two points, weights 1 and 3, errors given by a white noise. -/
example {Ω : Type*} [MeasurableSpace Ω] (μ : Measure Ω) (g : Ω → ℕ → ℝ) (hg : WhiteNoise μ g) :
    UncorrelatedErrors μ (fun (i : Fin 2) ω => if i = 0 then g ω 0 else (1 / Real.sqrt 3) * g ω 1) 1
      (fun i => if i = 0 then 1 else 3) := by
  refine ⟨fun i => ?_, fun i k => ?_, fun i => ?_, fun i k => ?_⟩
  · fin_cases i
    · exact hg.integrable 0
    · exact (hg.integrable 1).const_mul _
  · fin_cases i <;> fin_cases k
    · exact hg.integrable_mul 0 0
    · have := (hg.integrable_mul 0 1).const_mul (1 / Real.sqrt 3)
      refine this.congr (Filter.Eventually.of_forall fun ω => ?_)
      simp; ring
    · have := (hg.integrable_mul 1 0).const_mul (1 / Real.sqrt 3)
      refine this.congr (Filter.Eventually.of_forall fun ω => ?_)
      simp; ring
    · have := (hg.integrable_mul 1 1).const_mul (1 / Real.sqrt 3 * (1 / Real.sqrt 3))
      refine this.congr (Filter.Eventually.of_forall fun ω => ?_)
      simp; ring
  · fin_cases i
    · exact hg.mean 0
    · show ∫ ω, (1 / Real.sqrt 3) * g ω 1 ∂μ = 0
      rw [integral_const_mul, hg.mean, mul_zero]
  · fin_cases i <;> fin_cases k
    · have := hg.cov 0 0
      simpa using this
    · have : ∫ ω, g ω 0 * ((1 / Real.sqrt 3) * g ω 1) ∂μ = 0 := by
        have e : (fun ω => g ω 0 * ((1 / Real.sqrt 3) * g ω 1)) = fun ω => (1 / Real.sqrt 3) * (g ω 0 * g ω 1) := by
          funext ω; ring
        rw [e, integral_const_mul, hg.cov]; simp
      simpa using this
    · have : ∫ ω, ((1 / Real.sqrt 3) * g ω 1) * g ω 0 ∂μ = 0 := by
        have e : (fun ω => ((1 / Real.sqrt 3) * g ω 1) * g ω 0) = fun ω => (1 / Real.sqrt 3) * (g ω 1 * g ω 0) := by
          funext ω; ring
        rw [e, integral_const_mul, hg.cov]; simp
      simpa using this
    · have : ∫ ω, ((1 / Real.sqrt 3) * g ω 1) * ((1 / Real.sqrt 3) * g ω 1) ∂μ = 1 / 3 := by
        have e : (fun ω => ((1 / Real.sqrt 3) * g ω 1) * ((1 / Real.sqrt 3) * g ω 1))
            = fun ω => (1 / Real.sqrt 3 * (1 / Real.sqrt 3)) * (g ω 1 * g ω 1) := by
          funext ω; ring
        rw [e, integral_const_mul, hg.cov]
        have : Real.sqrt 3 * Real.sqrt 3 = 3 := Real.mul_self_sqrt (by norm_num)
        rw [if_pos rfl, mul_one, one_div, ← mul_inv, this]; norm_num
      simpa using this

end

end MFA
