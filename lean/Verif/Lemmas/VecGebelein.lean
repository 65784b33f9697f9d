import Verif.Lemmas.Gebelein
import Mathlib.MeasureTheory.Integral.Pi

/-! Gebelein's inequality for even functions of independent Gaussian columns. -/

namespace MFA

open MeasureTheory ProbabilityTheory Real
open scoped NNReal ENNReal

noncomputable section

/-- The law of `R` independent standard normal numbers. -/
abbrev stdGs (R : ℕ) : Measure (Fin R → ℝ) := Measure.pi fun _ => stdG

/-- The density of two correlated vectors with respect to the product law. -/
def mehlers {R : ℕ} (ρ : ℝ) (x y : Fin R → ℝ) : ℝ := ∏ r, mehler ρ (x r) (y r)

variable {R : ℕ}

theorem measurable_mehlers (ρ : ℝ) : Measurable fun z : (Fin R → ℝ) × (Fin R → ℝ) => mehlers ρ z.1 z.2 := by
  unfold mehlers
  refine Finset.measurable_prod _ fun r _ => ?_
  unfold mehler
  fun_prop

theorem mehlers_nonneg (ρ : ℝ) (x y : Fin R → ℝ) : 0 ≤ mehlers ρ x y := Finset.prod_nonneg fun _ _ => mehler_nonneg _ _ _

theorem mehlers_neg (ρ : ℝ) (x y : Fin R → ℝ) : mehlers ρ x (-y) = mehlers (-ρ) x y := by
  unfold mehlers; exact Finset.prod_congr rfl fun r _ => mehler_neg _ _ _

theorem prod_kernel {k : ℝ × ℝ → ℝ} (hk : Integrable k (stdG.prod stdG)) :
    Integrable (fun z : (Fin R → ℝ) × (Fin R → ℝ) => ∏ r, k (z.1 r, z.2 r)) ((stdGs R).prod (stdGs R)) ∧
    ∫ z : (Fin R → ℝ) × (Fin R → ℝ), ∏ r, k (z.1 r, z.2 r) ∂((stdGs R).prod (stdGs R)) = (∫ z, k z ∂(stdG.prod stdG)) ^ R := by
  have hmp := measurePreserving_arrowProdEquivProdArrow ℝ ℝ (Fin R) (fun _ => stdG) (fun _ => stdG)
  have hI : Integrable (fun z : Fin R → ℝ × ℝ => ∏ r, k (z r)) (Measure.pi fun _ => stdG.prod stdG) := Integrable.fintype_prod fun _ => hk
  constructor
  · rw [← hmp.integrable_comp_emb (MeasurableEquiv.measurableEmbedding _)]
    exact hI
  · rw [← hmp.integral_comp (MeasurableEquiv.measurableEmbedding _)]
    have := integral_fintype_prod_eq_pow (ι := Fin R) (μ := stdG.prod stdG) k
    rw [Fintype.card_fin] at this
    exact this

theorem mehler_measure {ρ : ℝ} (hρ : ρ ^ 2 < 1) (x : ℝ) :
    gaussianReal (ρ * x) (1 - ρ ^ 2).toNNReal = stdG.withDensity fun y => ENNReal.ofReal (mehler ρ x y) := by
  have hv : ((1 - ρ ^ 2).toNNReal : ℝ≥0) ≠ 0 := by simpa using hρ
  have hm : Measurable fun y => ENNReal.ofReal (mehler ρ x y) := by
    have : Measurable fun y => mehler ρ x y := by unfold mehler; fun_prop
    exact this.ennreal_ofReal
  rw [stdG, gaussianReal_of_var_ne_zero _ hv, gaussianReal_of_var_ne_zero _ one_ne_zero, ← withDensity_mul _ (measurable_gaussianPDF 0 1) hm]
  congr 1
  funext y
  rw [Pi.mul_apply, gaussianPDF, gaussianPDF, mehler_pdf hρ, ENNReal.ofReal_mul (gaussianPDFReal_nonneg _ _ _)]

theorem mehler_integrable {ρ : ℝ} (hρ : ρ ^ 2 < 1) (x : ℝ) : Integrable (fun y => mehler ρ x y) stdG := by
  have hm : Measurable fun y => mehler ρ x y := by unfold mehler; fun_prop
  refine ⟨hm.aestronglyMeasurable, ?_⟩
  rw [hasFiniteIntegral_iff_ofReal (Filter.Eventually.of_forall fun y => mehler_nonneg _ _ _)]
  have h := congrArg (fun m : Measure ℝ => m Set.univ) (mehler_measure hρ x)
  simp only [measure_univ, withDensity_apply _ MeasurableSet.univ, Measure.restrict_univ] at h
  rw [← h]; exact ENNReal.one_lt_top

theorem mehlers_measure {ρ : ℝ} (hρ : ρ ^ 2 < 1) (x : Fin R → ℝ) :
    Measure.pi (fun r => gaussianReal (ρ * x r) (1 - ρ ^ 2).toNNReal) = (stdGs R).withDensity fun y => ENNReal.ofReal (mehlers ρ x y) := by
  refine Measure.pi_eq fun s hs => ?_
  have hint : Integrable (fun y : Fin R → ℝ => ∏ r, (s r).indicator (fun t => mehler ρ (x r) t) (y r)) (stdGs R) :=
    Integrable.fintype_prod (f := fun r => (s r).indicator fun t => mehler ρ (x r) t) fun r => (mehler_integrable hρ (x r)).indicator (hs r)
  have hnn : ∀ (r : Fin R) (t : ℝ), 0 ≤ (s r).indicator (fun t => mehler ρ (x r) t) t :=
    fun r t => Set.indicator_nonneg (fun t _ => mehler_nonneg _ _ _) t
  rw [withDensity_apply _ (MeasurableSet.univ_pi hs), ← lintegral_indicator (MeasurableSet.univ_pi hs)]
  have e : ∀ y : Fin R → ℝ, (Set.univ.pi s).indicator (fun y => ENNReal.ofReal (mehlers ρ x y)) y =
      ENNReal.ofReal (∏ r, (s r).indicator (fun t => mehler ρ (x r) t) (y r)) := by
    intro y
    by_cases hy : y ∈ Set.univ.pi s
    · rw [Set.indicator_of_mem hy]
      congr 1
      refine Finset.prod_congr rfl fun r _ => ?_
      rw [Set.indicator_of_mem (hy r (Set.mem_univ r))]
    · rw [Set.indicator_of_notMem hy]
      simp only [Set.mem_pi, Set.mem_univ, true_implies, not_forall] at hy
      obtain ⟨r, hr⟩ := hy
      rw [Finset.prod_eq_zero (Finset.mem_univ r) (Set.indicator_of_notMem hr _), ENNReal.ofReal_zero]
  simp only [e]
  rw [← ofReal_integral_eq_lintegral_ofReal hint (Filter.Eventually.of_forall fun y => Finset.prod_nonneg fun r _ => hnn r _),
    integral_fintype_prod_eq_prod (fun r => (s r).indicator fun t => mehler ρ (x r) t),
    ENNReal.ofReal_prod_of_nonneg fun r _ => integral_nonneg fun t => hnn r t]
  refine Finset.prod_congr rfl fun r _ => ?_
  rw [mehler_measure hρ, withDensity_apply _ (hs r), integral_indicator (hs r),
    ofReal_integral_eq_lintegral_ofReal (mehler_integrable hρ (x r)).integrableOn (Filter.Eventually.of_forall fun t => mehler_nonneg _ _ _)]

/-- The conditional expectation given one of two Gaussian vectors. -/
theorem mehlers_integral {ρ : ℝ} (hρ : ρ ^ 2 < 1) {F : (Fin R → ℝ) → ℝ} (hF : Measurable F) (x : Fin R → ℝ) :
    ∫ w, F (fun r => ρ * x r + √(1 - ρ ^ 2) * w r) ∂stdGs R = ∫ y, mehlers ρ x y * F y ∂stdGs R := by
  have ht : 0 < 1 - ρ ^ 2 := by linarith
  have hmap1 : ∀ t : ℝ, stdG.map (fun w => ρ * t + √(1 - ρ ^ 2) * w) = gaussianReal (ρ * t) (1 - ρ ^ 2).toNNReal := by
    intro t
    have e : (fun w => ρ * t + √(1 - ρ ^ 2) * w) = (fun z => ρ * t + z) ∘ (fun w => √(1 - ρ ^ 2) * w) := rfl
    rw [e, ← Measure.map_map (by fun_prop) (by fun_prop), stdG, gaussianReal_map_const_mul, gaussianReal_map_const_add]
    congr 1
    · ring
    · ext
      simp [Real.sq_sqrt ht.le, Real.coe_toNNReal _ ht.le]
  have hmap : (stdGs R).map (fun w r => ρ * x r + √(1 - ρ ^ 2) * w r) = Measure.pi fun r => gaussianReal (ρ * x r) (1 - ρ ^ 2).toNNReal := by
    rw [Measure.pi_map_pi (f := fun r w => ρ * x r + √(1 - ρ ^ 2) * w) (fun r => by fun_prop)]
    simp only [hmap1]
  have hm : Measurable fun y => mehlers ρ x y := by
    unfold mehlers mehler; fun_prop
  have h1 : ∫ w, F (fun r => ρ * x r + √(1 - ρ ^ 2) * w r) ∂stdGs R =
      ∫ y, F y ∂((stdGs R).map (fun w r => ρ * x r + √(1 - ρ ^ 2) * w r)) := by
    have hm : Measurable fun (w : Fin R → ℝ) r => ρ * x r + √(1 - ρ ^ 2) * w r := by fun_prop
    rw [integral_map hm.aemeasurable hF.aestronglyMeasurable]
  rw [h1, hmap, mehlers_measure hρ, integral_withDensity_eq_integral_toReal_smul hm.ennreal_ofReal
    (Filter.Eventually.of_forall fun y => ENNReal.ofReal_lt_top)]
  refine integral_congr_ae (Filter.Eventually.of_forall fun y => ?_)
  show (ENNReal.ofReal (mehlers ρ x y)).toReal • F y = _
  rw [ENNReal.toReal_ofReal (mehlers_nonneg _ _ _), smul_eq_mul]

theorem mehlers_sq {ρ : ℝ} (hρ : ρ ^ 2 < 1) : Integrable (fun z : (Fin R → ℝ) × (Fin R → ℝ) => mehlers ρ z.1 z.2 ^ 2) ((stdGs R).prod (stdGs R)) ∧
    ∫ z : (Fin R → ℝ) × (Fin R → ℝ), mehlers ρ z.1 z.2 ^ 2 ∂((stdGs R).prod (stdGs R)) = ((1 - ρ ^ 2)⁻¹) ^ R := by
  have h := prod_kernel (R := R) (mehler_sq hρ).1
  rw [(mehler_sq hρ).2] at h
  simp only [mehlers, ← Finset.prod_pow]
  exact h

theorem mehlers_cross {ρ : ℝ} (hρ : ρ ^ 2 < 1) :
    Integrable (fun z : (Fin R → ℝ) × (Fin R → ℝ) => mehlers ρ z.1 z.2 * mehlers (-ρ) z.1 z.2) ((stdGs R).prod (stdGs R)) ∧
    ∫ z : (Fin R → ℝ) × (Fin R → ℝ), mehlers ρ z.1 z.2 * mehlers (-ρ) z.1 z.2 ∂((stdGs R).prod (stdGs R)) = ((1 + ρ ^ 2)⁻¹) ^ R := by
  have h := prod_kernel (R := R) (mehler_cross hρ).1
  rw [(mehler_cross hρ).2] at h
  simp only [mehlers, ← Finset.prod_mul_distrib]
  exact h

theorem mehlers_one {ρ : ℝ} (hρ : ρ ^ 2 < 1) : Integrable (fun z : (Fin R → ℝ) × (Fin R → ℝ) => mehlers ρ z.1 z.2) ((stdGs R).prod (stdGs R)) ∧
    ∫ z : (Fin R → ℝ) × (Fin R → ℝ), mehlers ρ z.1 z.2 ∂((stdGs R).prod (stdGs R)) = 1 := by
  have h := prod_kernel (R := R) (mehler_one hρ).1
  rw [(mehler_one hρ).2, one_pow] at h
  exact h

theorem integral_stdGs_neg (g : (Fin R → ℝ) → ℝ) : ∫ y, g (-y) ∂stdGs R = ∫ y, g y ∂stdGs R := by
  have h1 : stdG.map (fun x : ℝ => -x) = stdG := by rw [stdG, gaussianReal_map_neg, neg_zero]
  have h : (stdGs R).map (fun y : Fin R → ℝ => -y) = stdGs R := by
    have := Measure.pi_map_pi (ι := Fin R) (μ := fun _ => stdG) (f := fun _ x => -x) (fun r => by fun_prop)
    simp only [h1] at this
    exact this
  have := (MeasurableEquiv.neg (Fin R → ℝ)).measurableEmbedding.integral_map (μ := stdGs R) g
  have e : (⇑(MeasurableEquiv.neg (Fin R → ℝ)) : (Fin R → ℝ) → (Fin R → ℝ)) = fun x => -x := rfl
  rw [e, h] at this
  exact this.symm

/-- Powers of the two kernels. -/
theorem kernel_const (R : ℕ) : ∃ K : ℝ, 0 ≤ K ∧ ∀ t : ℝ, 0 ≤ t → t ≤ 1 / 4 →
    |((1 - t)⁻¹) ^ R + ((1 + t)⁻¹) ^ R - 2| ≤ K * t ^ 2 ∧ |((1 - t)⁻¹) ^ R - ((1 + t)⁻¹) ^ R| ≤ K * t := by
  induction R with
  | zero => exact ⟨0, le_rfl, fun t _ _ => by norm_num⟩
  | succ R ih =>
    obtain ⟨K, hK, h⟩ := ih
    refine ⟨3 * K + 6, by positivity, fun t h0 h1 => ?_⟩
    obtain ⟨a, ha⟩ := h t h0 h1
    obtain ⟨p, hp⟩ : ∃ p, p = ((1 - t)⁻¹) ^ R := ⟨_, rfl⟩
    obtain ⟨q, hq⟩ : ∃ q, q = ((1 + t)⁻¹) ^ R := ⟨_, rfl⟩
    rw [← hp, ← hq] at a ha
    rw [pow_succ, pow_succ, ← hp, ← hq]
    have t1 : 1 - t ≠ 0 := by intro h; linarith
    have t2 : 1 + t ≠ 0 := by positivity
    have hd : 0 < 1 - t ^ 2 := by nlinarith
    have e1 : (1 - t)⁻¹ = (1 + t) / (1 - t ^ 2) := by rw [show 1 - t ^ 2 = (1 - t) * (1 + t) by ring]; field_simp
    have e2 : (1 + t)⁻¹ = (1 - t) / (1 - t ^ 2) := by rw [show 1 - t ^ 2 = (1 - t) * (1 + t) by ring]; field_simp
    rw [e1, e2]
    have f1 : p * ((1 + t) / (1 - t ^ 2)) + q * ((1 - t) / (1 - t ^ 2)) - 2 = ((p + q - 2) + t * (p - q) + 2 * t ^ 2) / (1 - t ^ 2) := by
      field_simp; ring
    have f2 : p * ((1 + t) / (1 - t ^ 2)) - q * ((1 - t) / (1 - t ^ 2)) = ((p - q) + t * (p + q - 2) + 2 * t) / (1 - t ^ 2) := by
      field_simp; ring
    have hK1 : K * t ^ 2 ≤ K * t := mul_le_mul_of_nonneg_left (by nlinarith) hK
    have hd2 : 15 / 16 ≤ 1 - t ^ 2 := by nlinarith
    have hKt : 0 ≤ K * t := mul_nonneg hK h0
    have hKt2 : 0 ≤ K * t ^ 2 := by positivity
    rw [f1, f2, abs_div, abs_div, abs_of_pos hd, div_le_iff₀ hd, div_le_iff₀ hd]
    constructor
    · have b1 : |(p + q - 2) + t * (p - q) + 2 * t ^ 2| ≤ K * t ^ 2 + t * (K * t) + 2 * t ^ 2 := by
        refine (abs_add_le _ _).trans (add_le_add ((abs_add_le _ _).trans (add_le_add a ?_)) (le_of_eq (abs_of_nonneg (by positivity))))
        rw [abs_mul, abs_of_nonneg h0]; exact mul_le_mul_of_nonneg_left ha h0
      have b2 : (3 * K + 6) * t ^ 2 * (15 / 16) ≤ (3 * K + 6) * t ^ 2 * (1 - t ^ 2) := mul_le_mul_of_nonneg_left hd2 (by positivity)
      have b3 : t * (K * t) = K * t ^ 2 := by ring
      have b4 : 0 ≤ t ^ 2 := sq_nonneg t
      linarith
    · have b1 : |(p - q) + t * (p + q - 2) + 2 * t| ≤ K * t + t * (K * t ^ 2) + 2 * t := by
        refine (abs_add_le _ _).trans (add_le_add ((abs_add_le _ _).trans (add_le_add ha ?_)) (le_of_eq (abs_of_nonneg (by positivity))))
        rw [abs_mul, abs_of_nonneg h0]; exact mul_le_mul_of_nonneg_left a h0
      have b2 : (3 * K + 6) * t * (15 / 16) ≤ (3 * K + 6) * t * (1 - t ^ 2) := mul_le_mul_of_nonneg_left hd2 (by positivity)
      have b3 : t * (K * t ^ 2) ≤ 1 * (K * t ^ 2) := mul_le_mul_of_nonneg_right (by linarith) hKt2
      linarith

/-- The kernel averaged over the two signs of the correlation is close to 1 in mean square. -/
theorem kernels_bound (R : ℕ) : ∃ K : ℝ, 0 ≤ K ∧ ∀ {ρ : ℝ}, ρ ^ 2 ≤ 1 / 4 → ∀ {f : (Fin R → ℝ) → ℝ}, Measurable f → (∀ x, f (-x) = f x) →
    Integrable (fun x => f x ^ 2) (stdGs R) →
    Integrable (fun z : (Fin R → ℝ) × (Fin R → ℝ) => mehlers ρ z.1 z.2 * (f z.1 * f z.2)) ((stdGs R).prod (stdGs R)) ∧
    |∫ z : (Fin R → ℝ) × (Fin R → ℝ), mehlers ρ z.1 z.2 * (f z.1 * f z.2) ∂((stdGs R).prod (stdGs R)) - (∫ x, f x ∂stdGs R) ^ 2| ≤
      K * ρ ^ 2 * ∫ x, f x ^ 2 ∂stdGs R := by
  obtain ⟨K, hK, hKb⟩ := kernel_const R
  refine ⟨√K, Real.sqrt_nonneg K, ?_⟩
  intro ρ hρ f hf he hi
  have h1 : ρ ^ 2 < 1 := by linarith
  have h1' : (-ρ) ^ 2 < 1 := by linarith [neg_sq ρ]
  obtain ⟨P, hP⟩ : ∃ P, P = (stdGs R).prod (stdGs R) := ⟨_, rfl⟩
  have hPp : IsProbabilityMeasure P := by rw [hP]; infer_instance
  rw [← hP]
  have hk : ∀ r : ℝ, r ^ 2 < 1 → MemLp (fun z : (Fin R → ℝ) × (Fin R → ℝ) => mehlers r z.1 z.2) 2 P := fun r hr =>
    (memLp_two_iff_integrable_sq (measurable_mehlers r).aestronglyMeasurable).2 (hP ▸ (mehlers_sq hr).1)
  have hF2 : Integrable (fun z : (Fin R → ℝ) × (Fin R → ℝ) => (f z.1 * f z.2) ^ 2) P := by
    simp only [mul_pow]; rw [hP]; exact hi.mul_prod hi
  have hFm : MemLp (fun z : (Fin R → ℝ) × (Fin R → ℝ) => f z.1 * f z.2) 2 P :=
    (memLp_two_iff_integrable_sq (by
      exact ((hf.comp measurable_fst).mul (hf.comp measurable_snd)).aestronglyMeasurable)).2 hF2
  have hF : ∫ z : (Fin R → ℝ) × (Fin R → ℝ), (f z.1 * f z.2) ^ 2 ∂P = (∫ x, f x ^ 2 ∂stdGs R) ^ 2 := by
    simp only [mul_pow]
    rw [hP, integral_prod_mul (fun x => f x ^ 2) (fun x => f x ^ 2), sq]
  have hI : ∀ r : ℝ, r ^ 2 < 1 → Integrable (fun z : (Fin R → ℝ) × (Fin R → ℝ) => mehlers r z.1 z.2 * (f z.1 * f z.2)) P :=
    fun r hr => (hk r hr).integrable_mul hFm
  have hsym : ∫ z : (Fin R → ℝ) × (Fin R → ℝ), mehlers (-ρ) z.1 z.2 * (f z.1 * f z.2) ∂P =
      ∫ z : (Fin R → ℝ) × (Fin R → ℝ), mehlers ρ z.1 z.2 * (f z.1 * f z.2) ∂P := by
    have i1 := hI _ h1'
    have i2 := hI _ h1
    rw [hP] at i1 i2 ⊢
    rw [integral_prod _ i1, integral_prod _ i2]
    congr 1
    funext x
    rw [← integral_stdGs_neg (fun y => mehlers ρ x y * (f x * f y))]
    simp only [mehlers_neg, he]
  refine ⟨hI _ h1, ?_⟩
  have hG : MemLp (fun z : (Fin R → ℝ) × (Fin R → ℝ) => (1 / 2) * mehlers ρ z.1 z.2 + (1 / 2) * mehlers (-ρ) z.1 z.2 - 1) 2 P :=
    (((hk _ h1).const_mul _).add ((hk _ h1').const_mul _)).sub (memLp_const 1)
  have hm : (∫ x, f x ∂stdGs R) ^ 2 = ∫ z : (Fin R → ℝ) × (Fin R → ℝ), f z.1 * f z.2 ∂P := by rw [hP, integral_prod_mul f f, sq]
  have hA : ∫ z : (Fin R → ℝ) × (Fin R → ℝ), mehlers ρ z.1 z.2 * (f z.1 * f z.2) ∂P - (∫ x, f x ∂stdGs R) ^ 2 =
      ∫ z : (Fin R → ℝ) × (Fin R → ℝ), (f z.1 * f z.2) * ((1 / 2) * mehlers ρ z.1 z.2 + (1 / 2) * mehlers (-ρ) z.1 z.2 - 1) ∂P := by
    have J1 := (hI _ h1).const_mul (1 / 2)
    have J2 := (hI _ h1').const_mul (1 / 2)
    have J3 : Integrable (fun z : (Fin R → ℝ) × (Fin R → ℝ) => f z.1 * f z.2) P := hFm.integrable (by norm_num)
    have J12 : Integrable (fun z : (Fin R → ℝ) × (Fin R → ℝ) => (1 / 2) * (mehlers ρ z.1 z.2 * (f z.1 * f z.2)) +
      (1 / 2) * (mehlers (-ρ) z.1 z.2 * (f z.1 * f z.2))) P := J1.add J2
    have e : (fun z : (Fin R → ℝ) × (Fin R → ℝ) => (f z.1 * f z.2) * ((1 / 2) * mehlers ρ z.1 z.2 + (1 / 2) * mehlers (-ρ) z.1 z.2 - 1)) =
        fun z => ((1 / 2) * (mehlers ρ z.1 z.2 * (f z.1 * f z.2)) + (1 / 2) * (mehlers (-ρ) z.1 z.2 * (f z.1 * f z.2))) - f z.1 * f z.2 := by
      funext z; ring
    rw [e, integral_sub J12 J3, integral_add J1 J2, integral_const_mul, integral_const_mul, hsym, ← hm]
    ring
  have hG2 : ∫ z : (Fin R → ℝ) × (Fin R → ℝ), ((1 / 2) * mehlers ρ z.1 z.2 + (1 / 2) * mehlers (-ρ) z.1 z.2 - 1) ^ 2 ∂P =
      (((1 - ρ ^ 2)⁻¹) ^ R + ((1 + ρ ^ 2)⁻¹) ^ R - 2) / 2 := by
    obtain ⟨a1, b1⟩ := mehlers_sq (R := R) h1
    obtain ⟨a2, b2⟩ := mehlers_sq (R := R) h1'
    obtain ⟨a3, b3⟩ := mehlers_cross (R := R) h1
    obtain ⟨a4, b4⟩ := mehlers_one (R := R) h1
    obtain ⟨a5, b5⟩ := mehlers_one (R := R) h1'
    rw [← hP] at a1 b1 a2 b2 a3 b3 a4 b4 a5 b5
    have e : (fun z : (Fin R → ℝ) × (Fin R → ℝ) => ((1 / 2) * mehlers ρ z.1 z.2 + (1 / 2) * mehlers (-ρ) z.1 z.2 - 1) ^ 2) = fun z =>
        ((1 / 4) * mehlers ρ z.1 z.2 ^ 2 + (1 / 4) * mehlers (-ρ) z.1 z.2 ^ 2 + (1 / 2) * (mehlers ρ z.1 z.2 * mehlers (-ρ) z.1 z.2)) -
        (mehlers ρ z.1 z.2 + mehlers (-ρ) z.1 z.2 - 1) := by funext z; ring
    have k1 := a1.const_mul (1 / 4)
    have k2 := a2.const_mul (1 / 4)
    have k3 := a3.const_mul (1 / 2)
    have k12 : Integrable (fun z : (Fin R → ℝ) × (Fin R → ℝ) => (1 / 4) * mehlers ρ z.1 z.2 ^ 2 + (1 / 4) * mehlers (-ρ) z.1 z.2 ^ 2) P := k1.add k2
    have k123 : Integrable (fun z : (Fin R → ℝ) × (Fin R → ℝ) => (1 / 4) * mehlers ρ z.1 z.2 ^ 2 + (1 / 4) * mehlers (-ρ) z.1 z.2 ^ 2 +
      (1 / 2) * (mehlers ρ z.1 z.2 * mehlers (-ρ) z.1 z.2)) P := k12.add k3
    have k45 : Integrable (fun z : (Fin R → ℝ) × (Fin R → ℝ) => mehlers ρ z.1 z.2 + mehlers (-ρ) z.1 z.2) P := a4.add a5
    have k451 : Integrable (fun z : (Fin R → ℝ) × (Fin R → ℝ) => mehlers ρ z.1 z.2 + mehlers (-ρ) z.1 z.2 - 1) P := k45.sub (integrable_const 1)
    rw [e, integral_sub k123 k451, integral_add k12 k3, integral_add k1 k2, integral_sub k45 (integrable_const 1), integral_add a4 a5,
      integral_const_mul, integral_const_mul, integral_const_mul, b1, b2, b3, b4, b5]
    simp only [integral_const, probReal_univ, one_smul]
    rw [show (-ρ) ^ 2 = ρ ^ 2 by ring]
    ring
  have hcs := integral_mul_sq_le hFm hG
  rw [← hA, hF, hG2] at hcs
  refine hcs.trans ?_
  have hS : 0 ≤ ∫ x, f x ^ 2 ∂stdGs R := integral_nonneg fun x => sq_nonneg _
  rw [Real.sqrt_sq hS, mul_comm]
  refine mul_le_mul_of_nonneg_right ?_ hS
  have hb := (hKb (ρ ^ 2) (sq_nonneg ρ) hρ).1
  refine Real.sqrt_le_iff.2 ⟨by positivity, ?_⟩
  rw [mul_pow, Real.sq_sqrt hK]
  have h2 := (le_abs_self _).trans hb
  have h3 : 0 ≤ K * (ρ ^ 2) ^ 2 := by positivity
  linarith

/-- **Gebelein's inequality** for even functions of two Gaussian vectors with independent components of the same correlation. -/
theorem vec_gebelein (R : ℕ) : ∃ K : ℝ, 0 ≤ K ∧ ∀ {Ω : Type*} [MeasurableSpace Ω] {μ : Measure Ω} {X Y : Fin R → Ω → ℝ} {ρ : ℝ},
    HasGaussianLaw (fun ω (a : Fin R ⊕ Fin R) => Sum.elim (fun r => X r ω) (fun r => Y r ω) a) μ →
    (∀ r, ∫ ω, X r ω ∂μ = 0) → (∀ r, ∫ ω, Y r ω ∂μ = 0) → (∀ r s, ∫ ω, X r ω * X s ω ∂μ = if r = s then 1 else 0) →
    (∀ r s, ∫ ω, Y r ω * Y s ω ∂μ = if r = s then 1 else 0) → (∀ r s, ∫ ω, X r ω * Y s ω ∂μ = if r = s then ρ else 0) →
    ∀ {f : (Fin R → ℝ) → ℝ}, Measurable f → (∀ x, f (-x) = f x) → Integrable (fun x => f x ^ 2) (stdGs R) →
    Integrable (fun ω => f fun r => X r ω) μ ∧ ∫ ω, f (fun r => X r ω) ∂μ = ∫ x, f x ∂stdGs R ∧
    Integrable (fun ω => f (fun r => X r ω) * f fun r => Y r ω) μ ∧
    |∫ ω, f (fun r => X r ω) * f (fun r => Y r ω) ∂μ - (∫ x, f x ∂stdGs R) ^ 2| ≤ K * ρ ^ 2 * ∫ x, f x ^ 2 ∂stdGs R := by
  obtain ⟨K, hK, hkb⟩ := kernels_bound R
  refine ⟨max K 8, hK.trans (le_max_left _ _), ?_⟩
  intro Ω _ μ X Y ρ h hX hY hXX hYY hXY f hf he hi
  have hp := h.isProbabilityMeasure
  have gX : ∀ r, HasGaussianLaw (X r) μ := fun r => h.map_fun (ContinuousLinearMap.proj (R := ℝ) (φ := fun _ : Fin R ⊕ Fin R => ℝ) (Sum.inl r))
  have gY : ∀ r, HasGaussianLaw (Y r) μ := fun r => h.map_fun (ContinuousLinearMap.proj (R := ℝ) (φ := fun _ : Fin R ⊕ Fin R => ℝ) (Sum.inr r))
  -- the law of uncorrelated normalised vectors
  have law1 : ∀ {Z : Ω → ℝ}, HasGaussianLaw Z μ → ∫ ω, Z ω ∂μ = 0 → ∫ ω, Z ω * Z ω ∂μ = 1 → μ.map Z = stdG := by
    intro Z g h0 h1
    have e := g.map_eq_gaussianReal
    have hv : Var[Z; μ] = 1 := by
      rw [variance_eq_sub g.memLp_two, h0]
      simp only [← sq] at h1
      simpa using h1
    rw [h0, hv] at e
    simpa using e
  have law : ∀ {ι : Type} [Fintype ι] [DecidableEq ι] {Z : ι → Ω → ℝ}, HasGaussianLaw (fun ω i => Z i ω) μ → (∀ i, ∫ ω, Z i ω ∂μ = 0) →
      (∀ i k, ∫ ω, Z i ω * Z k ω ∂μ = if i = k then 1 else 0) → μ.map (fun ω i => Z i ω) = Measure.pi fun _ : ι => stdG := by
    intro ι _ _ Z g h0 h1
    have gi : ∀ i, HasGaussianLaw (Z i) μ := fun i => g.map_fun (ContinuousLinearMap.proj (R := ℝ) (φ := fun _ : ι => ℝ) i)
    have hind : iIndepFun Z μ := g.iIndepFun_of_covariance_eq_zero fun i k hik => by
      rw [covariance_eq_sub (gi i).memLp_two (gi k).memLp_two, h0, zero_mul, sub_zero]
      have := h1 i k
      rw [if_neg hik] at this
      exact this
    rw [(iIndepFun_iff_map_fun_eq_pi_map fun i => (gi i).aemeasurable).1 hind]
    congr 1
    funext i
    exact law1 (gi i) (h0 i) (by rw [h1, if_pos rfl])
  have gXv : HasGaussianLaw (fun ω r => X r ω) μ := h.map_fun (ContinuousLinearMap.pi fun r : Fin R =>
    ContinuousLinearMap.proj (R := ℝ) (φ := fun _ : Fin R ⊕ Fin R => ℝ) (Sum.inl r))
  have gYv : HasGaussianLaw (fun ω r => Y r ω) μ := h.map_fun (ContinuousLinearMap.pi fun r : Fin R =>
    ContinuousLinearMap.proj (R := ℝ) (φ := fun _ : Fin R ⊕ Fin R => ℝ) (Sum.inr r))
  have lX := law gXv hX hXX
  have lY := law gYv hY hYY
  have comp : ∀ {Z : Fin R → Ω → ℝ}, HasGaussianLaw (fun ω r => Z r ω) μ → μ.map (fun ω r => Z r ω) = stdGs R →
      MemLp (fun ω => f fun r => Z r ω) 2 μ ∧ ∫ ω, f (fun r => Z r ω) ∂μ = ∫ x, f x ∂stdGs R ∧
      ∫ ω, f (fun r => Z r ω) ^ 2 ∂μ = ∫ x, f x ^ 2 ∂stdGs R := by
    intro Z g l
    have m := g.aemeasurable
    refine ⟨?_, ?_, ?_⟩
    · refine (memLp_two_iff_integrable_sq (hf.comp_aemeasurable m).aestronglyMeasurable).2 ?_
      have hi' := hi
      rw [← l] at hi'
      exact hi'.comp_aemeasurable m
    · rw [← l, integral_map m hf.aestronglyMeasurable]
    · rw [← l, integral_map m (hf.pow_const 2).aestronglyMeasurable]
  obtain ⟨mX, iX, sX⟩ := comp gXv lX
  obtain ⟨mY, iY, sY⟩ := comp gYv lY
  have hprod : Integrable (fun ω => f (fun r => X r ω) * f fun r => Y r ω) μ := mX.integrable_mul mY
  refine ⟨mX.integrable (by norm_num), iX, hprod, ?_⟩
  have hS : 0 ≤ ∫ x, f x ^ 2 ∂stdGs R := integral_nonneg fun x => sq_nonneg _
  have hρ0 := sq_nonneg ρ
  by_cases hs : ρ ^ 2 ≤ 1 / 4
  swap
  · have h1 := integral_mul_sq_le mX mY
    rw [sX, sY, Real.mul_self_sqrt hS] at h1
    have h2 := integral_mul_sq_le mX (memLp_const (1:ℝ))
    simp only [mul_one, one_pow, integral_const, probReal_univ, one_smul, Real.sqrt_one, iX, sX] at h2
    have h3 : (∫ x, f x ∂stdGs R) ^ 2 ≤ ∫ x, f x ^ 2 ∂stdGs R := by
      have := pow_le_pow_left₀ (abs_nonneg _) h2 2
      rwa [sq_abs, Real.sq_sqrt hS] at this
    push Not at hs
    have h4 : |∫ ω, f (fun r => X r ω) * f (fun r => Y r ω) ∂μ - (∫ x, f x ∂stdGs R) ^ 2| ≤ 2 * ∫ x, f x ^ 2 ∂stdGs R := by
      refine (abs_sub _ _).trans ?_
      rw [abs_of_nonneg (sq_nonneg (∫ x, f x ∂stdGs R))]
      linarith
    refine h4.trans (mul_le_mul_of_nonneg_right ?_ hS)
    have : 8 * ρ ^ 2 ≤ max K 8 * ρ ^ 2 := mul_le_mul_of_nonneg_right (le_max_right _ _) hρ0
    linarith
  · have h1 : ρ ^ 2 < 1 := by linarith
    have ht : 0 < 1 - ρ ^ 2 := by linarith
    obtain ⟨t, htd⟩ : ∃ t, t = √(1 - ρ ^ 2) := ⟨_, rfl⟩
    have hr : t ≠ 0 := htd ▸ (Real.sqrt_pos.2 ht).ne'
    have ht2 : t ^ 2 = 1 - ρ ^ 2 := htd ▸ Real.sq_sqrt ht.le
    obtain ⟨k1, k2⟩ := hkb hs hf he hi
    -- the innovations
    obtain ⟨W, hW⟩ : ∃ W : Fin R → Ω → ℝ, W = fun r ω => t⁻¹ * (Y r ω - ρ * X r ω) := ⟨_, rfl⟩
    have gXW : HasGaussianLaw (fun ω (a : Fin R ⊕ Fin R) => (Sum.elim X W a) ω) μ := by
      have := h.map_fun (ContinuousLinearMap.pi fun a : Fin R ⊕ Fin R => Sum.elim
        (fun r => ContinuousLinearMap.proj (R := ℝ) (φ := fun _ : Fin R ⊕ Fin R => ℝ) (Sum.inl r))
        (fun r => t⁻¹ • (ContinuousLinearMap.proj (R := ℝ) (φ := fun _ : Fin R ⊕ Fin R => ℝ) (Sum.inr r) -
          ρ • ContinuousLinearMap.proj (R := ℝ) (φ := fun _ : Fin R ⊕ Fin R => ℝ) (Sum.inl r))) a)
      have e : (fun ω (a : Fin R ⊕ Fin R) => (Sum.elim X W a) ω) = fun ω => (ContinuousLinearMap.pi fun a : Fin R ⊕ Fin R => Sum.elim
        (fun r => ContinuousLinearMap.proj (R := ℝ) (φ := fun _ : Fin R ⊕ Fin R => ℝ) (Sum.inl r))
        (fun r => t⁻¹ • (ContinuousLinearMap.proj (R := ℝ) (φ := fun _ : Fin R ⊕ Fin R => ℝ) (Sum.inr r) -
          ρ • ContinuousLinearMap.proj (R := ℝ) (φ := fun _ : Fin R ⊕ Fin R => ℝ) (Sum.inl r))) a)
          (fun a : Fin R ⊕ Fin R => Sum.elim (fun r => X r ω) (fun r => Y r ω) a) := by
        funext ω a
        rcases a with r | r
        · rfl
        · rw [hW]; rfl
      rw [e]; exact this
    have iXX : ∀ r s, Integrable (fun ω => X r ω * X s ω) μ := fun r s => (gX r).memLp_two.integrable_mul (gX s).memLp_two
    have iXY : ∀ r s, Integrable (fun ω => X r ω * Y s ω) μ := fun r s => (gX r).memLp_two.integrable_mul (gY s).memLp_two
    have iYY : ∀ r s, Integrable (fun ω => Y r ω * Y s ω) μ := fun r s => (gY r).memLp_two.integrable_mul (gY s).memLp_two
    have mW : ∀ r, ∫ ω, W r ω ∂μ = 0 := by
      intro r
      rw [hW]
      show ∫ ω, t⁻¹ * (Y r ω - ρ * X r ω) ∂μ = 0
      rw [integral_const_mul, integral_sub (gY r).integrable ((gX r).integrable.const_mul ρ), integral_const_mul, hX, hY]; simp
    have cXW : ∀ r s, ∫ ω, X r ω * W s ω ∂μ = 0 := by
      intro r s
      have e : (fun ω => X r ω * W s ω) = fun ω => t⁻¹ * (X r ω * Y s ω - ρ * (X r ω * X s ω)) := by
        funext ω; rw [hW]; ring
      rw [e, integral_const_mul, integral_sub (iXY r s) ((iXX r s).const_mul _), integral_const_mul, hXX, hXY]
      split <;> ring
    have cWW : ∀ r s, ∫ ω, W r ω * W s ω ∂μ = if r = s then 1 else 0 := by
      intro r s
      have e : (fun ω => W r ω * W s ω) = fun ω => (t ^ 2)⁻¹ * ((Y r ω * Y s ω - ρ * (X s ω * Y r ω)) - ρ * (X r ω * Y s ω - ρ * (X r ω * X s ω))) := by
        funext ω; rw [hW]
        field_simp
      have j1 : Integrable (fun ω => Y r ω * Y s ω - ρ * (X s ω * Y r ω)) μ := (iYY r s).sub ((iXY s r).const_mul _)
      have j2 : Integrable (fun ω => X r ω * Y s ω - ρ * (X r ω * X s ω)) μ := (iXY r s).sub ((iXX r s).const_mul _)
      rw [e, integral_const_mul, integral_sub j1 (j2.const_mul _), integral_sub (iYY r s) ((iXY s r).const_mul _), integral_const_mul, integral_const_mul,
        integral_sub (iXY r s) ((iXX r s).const_mul _), integral_const_mul, hXX, hXY, hXY, hYY]
      by_cases hrs : r = s
      · subst hrs
        simp only [if_true]
        rw [ht2]
        field_simp
        ring
      · rw [if_neg hrs, if_neg fun h => hrs h.symm, if_neg hrs]; ring
    have lU := law (ι := Fin R ⊕ Fin R) (Z := Sum.elim X W) gXW
      (fun a => by rcases a with r | r; exacts [hX r, mW r])
      (fun a b => by
        rcases a with r | r <;> rcases b with s | s
        · simpa using hXX r s
        · simpa using cXW r s
        · have := cXW s r
          simpa [mul_comm] using this
        · simpa using cWW r s)
    have lXW : μ.map (fun ω => ((fun r => X r ω), (fun r => W r ω))) = (stdGs R).prod (stdGs R) := by
      have hmp := (measurePreserving_sumPiEquivProdPi (X := fun _ : Fin R ⊕ Fin R => ℝ) (fun _ => stdG)).map_eq
      rw [← lU, AEMeasurable.map_map_of_aemeasurable (MeasurableEquiv.measurable _).aemeasurable gXW.aemeasurable] at hmp
      exact hmp
    have aXW : AEMeasurable (fun ω => ((fun r => X r ω), (fun r => W r ω))) μ :=
      gXv.aemeasurable.prodMk (aemeasurable_pi_lambda _ fun r => by
        rw [hW]; exact (((gY r).aemeasurable.sub ((gX r).aemeasurable.const_mul ρ)).const_mul _))
    have eY : ∀ ω, (fun r => Y r ω) = fun r => ρ * X r ω + √(1 - ρ ^ 2) * W r ω := by
      intro ω
      funext r
      rw [hW, ← htd]
      show Y r ω = ρ * X r ω + t * (t⁻¹ * (Y r ω - ρ * X r ω))
      rw [← mul_assoc, mul_inv_cancel₀ hr]; ring
    have hmeas : Measurable fun z : (Fin R → ℝ) × (Fin R → ℝ) => f z.1 * f fun r => ρ * z.1 r + √(1 - ρ ^ 2) * z.2 r :=
      (hf.comp measurable_fst).mul (hf.comp (by fun_prop))
    have q1 : ∫ ω, f (fun r => X r ω) * f (fun r => Y r ω) ∂μ =
        ∫ z : (Fin R → ℝ) × (Fin R → ℝ), f z.1 * f (fun r => ρ * z.1 r + √(1 - ρ ^ 2) * z.2 r) ∂((stdGs R).prod (stdGs R)) := by
      rw [← lXW, integral_map aXW hmeas.aestronglyMeasurable]
      simp only [← eY]
    have q2 : Integrable (fun z : (Fin R → ℝ) × (Fin R → ℝ) => f z.1 * f fun r => ρ * z.1 r + √(1 - ρ ^ 2) * z.2 r) ((stdGs R).prod (stdGs R)) := by
      rw [← lXW, integrable_map_measure hmeas.aestronglyMeasurable aXW]
      have : ((fun z : (Fin R → ℝ) × (Fin R → ℝ) => f z.1 * f fun r => ρ * z.1 r + √(1 - ρ ^ 2) * z.2 r) ∘
          fun ω => ((fun r => X r ω), (fun r => W r ω))) = fun ω => f (fun r => X r ω) * f fun r => Y r ω := by
        funext ω; simp only [Function.comp, ← eY]
      rw [this]; exact hprod
    have q3 : ∫ ω, f (fun r => X r ω) * f (fun r => Y r ω) ∂μ =
        ∫ z : (Fin R → ℝ) × (Fin R → ℝ), mehlers ρ z.1 z.2 * (f z.1 * f z.2) ∂((stdGs R).prod (stdGs R)) := by
      rw [q1, integral_prod _ q2, integral_prod _ k1]
      congr 1
      funext x
      simp only
      rw [integral_const_mul, mehlers_integral h1 hf, ← integral_const_mul]
      congr 1
      funext y
      ring
    rw [q3]
    refine k2.trans (mul_le_mul_of_nonneg_right ?_ hS)
    exact mul_le_mul_of_nonneg_right (le_max_left _ _) hρ0

end

end MFA
