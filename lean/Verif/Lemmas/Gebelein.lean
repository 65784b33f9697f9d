import Mathlib.Probability.Distributions.Gaussian.HasGaussianLaw.Independence
import Mathlib.Probability.Distributions.Gaussian.HasGaussianLaw.Basic
import Mathlib.Probability.Distributions.Gaussian.Real
import Mathlib.MeasureTheory.Integral.MeanInequalities

/-! Gebelein's inequality for even functions: the covariance of `f(X)` and `f(Y)` is at most a multiple of the squared correlation. -/

namespace MFA

open MeasureTheory ProbabilityTheory Real
open scoped NNReal ENNReal

noncomputable section

/-- The standard normal law. -/
abbrev stdG : Measure ℝ := gaussianReal 0 1

theorem integrable_stdG_iff {f : ℝ → ℝ} : Integrable f stdG ↔ Integrable (fun y => gaussianPDFReal 0 1 y * f y) volume := by
  rw [stdG, gaussianReal_of_var_ne_zero 0 one_ne_zero, integrable_withDensity_iff_integrable_smul' (measurable_gaussianPDF 0 1)
    (Filter.Eventually.of_forall fun x => gaussianPDF_lt_top)]
  simp only [toReal_gaussianPDF, smul_eq_mul]

theorem gauss_exp {c : ℝ} (hc : c < 1 / 2) (b : ℝ) : Integrable (fun y => exp (c * y ^ 2 + b * y)) stdG ∧
    ∫ y, exp (c * y ^ 2 + b * y) ∂stdG = (√(1 - 2 * c))⁻¹ * exp (b ^ 2 / (2 * (1 - 2 * c))) := by
  have ht : 0 < 1 - 2 * c := by linarith
  obtain ⟨t, htd⟩ : ∃ t, t = 1 - 2 * c := ⟨_, rfl⟩
  rw [← htd] at ht ⊢
  have hv : ((1 / t).toNNReal : ℝ≥0) ≠ 0 := by
    have : 0 < 1 / t := by positivity
    simpa using this
  have key : ∀ y, gaussianPDFReal 0 1 y * exp (c * y ^ 2 + b * y) =
      (√t)⁻¹ * exp (b ^ 2 / (2 * t)) * gaussianPDFReal (b / t) (1 / t).toNNReal y := by
    intro y
    simp only [gaussianPDFReal, NNReal.coe_one, mul_one, sub_zero, Real.coe_toNNReal _ (show (0:ℝ) ≤ 1 / t by positivity)]
    rw [show c = (1 - t) / 2 by rw [htd]; ring, show 2 * π * (1 / t) = 2 * π / t by ring, Real.sqrt_div (by positivity),
      mul_assoc, ← exp_add, inv_div, mul_assoc, mul_left_comm (exp _), ← exp_add, ← mul_assoc]
    congr 1
    · have : √t ≠ 0 := (Real.sqrt_pos.2 ht).ne'
      field_simp
    · congr 1
      field_simp
      ring
  constructor
  · rw [integrable_stdG_iff]
    simp only [key]
    exact (integrable_gaussianPDFReal _ _).const_mul _
  · rw [stdG, integral_gaussianReal_eq_integral_smul one_ne_zero]
    simp only [smul_eq_mul, key]
    rw [integral_const_mul, integral_gaussianPDFReal_eq_one _ hv, mul_one]

/-- Mehler's kernel: the density of a Gaussian pair with correlation `ρ` with respect to the product law. -/
def mehler (ρ x y : ℝ) : ℝ := (√(1 - ρ ^ 2))⁻¹ * exp (-(ρ ^ 2 * x ^ 2 - 2 * ρ * (x * y) + ρ ^ 2 * y ^ 2) / (2 * (1 - ρ ^ 2)))

theorem mehler_pdf {ρ : ℝ} (hρ : ρ ^ 2 < 1) (x y : ℝ) :
    gaussianPDFReal (ρ * x) (1 - ρ ^ 2).toNNReal y = gaussianPDFReal 0 1 y * mehler ρ x y := by
  have ht : 0 < 1 - ρ ^ 2 := by linarith
  have hcoe : (((1 - ρ ^ 2).toNNReal : ℝ≥0) : ℝ) = 1 - ρ ^ 2 := Real.coe_toNNReal _ ht.le
  simp only [gaussianPDFReal, mehler, NNReal.coe_one, mul_one, sub_zero, hcoe]
  rw [Real.sqrt_mul (by positivity), mul_inv, mul_assoc, mul_assoc, mul_left_comm (exp _), ← exp_add]
  congr 3
  field_simp
  ring

/-- The conditional expectation given one of two Gaussian variables. -/
theorem mehler_integral {ρ : ℝ} (hρ : ρ ^ 2 < 1) {f : ℝ → ℝ} (hf : Measurable f) (x : ℝ) :
    ∫ w, f (ρ * x + √(1 - ρ ^ 2) * w) ∂stdG = ∫ y, mehler ρ x y * f y ∂stdG := by
  have ht : 0 < 1 - ρ ^ 2 := by linarith
  have hmap : stdG.map (fun w => ρ * x + √(1 - ρ ^ 2) * w) = gaussianReal (ρ * x) (1 - ρ ^ 2).toNNReal := by
    have e : (fun w => ρ * x + √(1 - ρ ^ 2) * w) = (fun z => ρ * x + z) ∘ (fun w => √(1 - ρ ^ 2) * w) := rfl
    rw [e, ← Measure.map_map (by fun_prop) (by fun_prop), stdG, gaussianReal_map_const_mul, gaussianReal_map_const_add]
    congr 1
    · ring
    · ext
      simp [Real.sq_sqrt ht.le, Real.coe_toNNReal _ ht.le]
  have hv : ((1 - ρ ^ 2).toNNReal : ℝ≥0) ≠ 0 := by
    simpa using hρ
  have h1 : ∫ w, f (ρ * x + √(1 - ρ ^ 2) * w) ∂stdG = ∫ y, f y ∂(stdG.map (fun w => ρ * x + √(1 - ρ ^ 2) * w)) := by
    rw [integral_map (by fun_prop) hf.aestronglyMeasurable]
  rw [h1, hmap, integral_gaussianReal_eq_integral_smul hv, stdG, integral_gaussianReal_eq_integral_smul one_ne_zero]
  simp only [smul_eq_mul, mehler_pdf hρ, mul_assoc]

theorem measurable_mehler (ρ : ℝ) : Measurable fun z : ℝ × ℝ => mehler ρ z.1 z.2 := by
  unfold mehler; fun_prop

theorem mehler_nonneg (ρ x y : ℝ) : 0 ≤ mehler ρ x y := by unfold mehler; positivity

theorem mehler_neg (ρ x y : ℝ) : mehler ρ x (-y) = mehler (-ρ) x y := by
  unfold mehler
  rw [show (-ρ) ^ 2 = ρ ^ 2 by ring]
  congr 3
  ring

/-- Products of two kernels with opposite or equal correlations. -/
theorem mehler_sq {ρ : ℝ} (hρ : ρ ^ 2 < 1) : Integrable (fun z : ℝ × ℝ => mehler ρ z.1 z.2 ^ 2) (stdG.prod stdG) ∧
    ∫ z : ℝ × ℝ, mehler ρ z.1 z.2 ^ 2 ∂(stdG.prod stdG) = (1 - ρ ^ 2)⁻¹ := by
  have ht : 0 < 1 - ρ ^ 2 := by linarith
  have ht' : 0 < 1 + ρ ^ 2 := by positivity
  have e : ∀ x y, mehler ρ x y ^ 2 = (1 - ρ ^ 2)⁻¹ * exp (-(ρ ^ 2 * x ^ 2 / (1 - ρ ^ 2))) *
      exp (-(ρ ^ 2 / (1 - ρ ^ 2)) * y ^ 2 + 2 * ρ * x / (1 - ρ ^ 2) * y) := by
    intro x y
    unfold mehler
    rw [mul_pow, inv_pow, Real.sq_sqrt ht.le, ← exp_nat_mul, mul_assoc (1 - ρ ^ 2)⁻¹, ← exp_add]
    congr 2
    push_cast
    field_simp
    ring
  have hc : -(ρ ^ 2 / (1 - ρ ^ 2)) < 1 / 2 := by
    have : 0 ≤ ρ ^ 2 / (1 - ρ ^ 2) := by positivity
    linarith
  have e1 : 1 - 2 * (-(ρ ^ 2 / (1 - ρ ^ 2))) = (1 + ρ ^ 2) / (1 - ρ ^ 2) := by field_simp; ring
  have hin : ∀ x, ∫ y, mehler ρ x y ^ 2 ∂stdG =
      (1 - ρ ^ 2)⁻¹ * (√((1 + ρ ^ 2) / (1 - ρ ^ 2)))⁻¹ * exp (ρ ^ 2 / (1 + ρ ^ 2) * x ^ 2 + 0 * x) := by
    intro x
    simp only [e]
    rw [integral_const_mul, (gauss_exp hc _).2, e1, mul_assoc, mul_left_comm (exp _), ← exp_add, ← mul_assoc]
    congr 2
    field_simp
    ring
  have hc2 : ρ ^ 2 / (1 + ρ ^ 2) < 1 / 2 := by rw [div_lt_iff₀ ht']; linarith
  have e2 : 1 - 2 * (ρ ^ 2 / (1 + ρ ^ 2)) = (1 - ρ ^ 2) / (1 + ρ ^ 2) := by field_simp; ring
  have hI : Integrable (fun z : ℝ × ℝ => mehler ρ z.1 z.2 ^ 2) (stdG.prod stdG) := by
    rw [integrable_prod_iff (by exact ((measurable_mehler ρ).pow_const 2).aestronglyMeasurable)]
    refine ⟨Filter.Eventually.of_forall fun x => ?_, ?_⟩
    · simp only [e]
      exact (gauss_exp hc _).1.const_mul _
    · simp only [Real.norm_eq_abs, abs_of_nonneg (sq_nonneg (mehler ρ _ _)), hin]
      exact (gauss_exp hc2 0).1.const_mul _
  refine ⟨hI, ?_⟩
  rw [integral_prod _ hI]
  simp only [hin]
  rw [integral_const_mul, (gauss_exp hc2 0).2, e2, Real.sqrt_div ht'.le, Real.sqrt_div ht.le, inv_div, inv_div]
  have h1 := (Real.sqrt_pos.2 ht).ne'
  have h2 := (Real.sqrt_pos.2 ht').ne'
  field_simp
  simp

theorem mehler_cross {ρ : ℝ} (hρ : ρ ^ 2 < 1) : Integrable (fun z : ℝ × ℝ => mehler ρ z.1 z.2 * mehler (-ρ) z.1 z.2) (stdG.prod stdG) ∧
    ∫ z : ℝ × ℝ, mehler ρ z.1 z.2 * mehler (-ρ) z.1 z.2 ∂(stdG.prod stdG) = (1 + ρ ^ 2)⁻¹ := by
  have ht : 0 < 1 - ρ ^ 2 := by linarith
  have ht' : 0 < 1 + ρ ^ 2 := by positivity
  have hc : -(ρ ^ 2 / (1 - ρ ^ 2)) < 1 / 2 := by
    have : 0 ≤ ρ ^ 2 / (1 - ρ ^ 2) := by positivity
    linarith
  have e1 : 1 - 2 * (-(ρ ^ 2 / (1 - ρ ^ 2))) = (1 + ρ ^ 2) / (1 - ρ ^ 2) := by field_simp; ring
  have e : ∀ x y, mehler ρ x y * mehler (-ρ) x y = (1 - ρ ^ 2)⁻¹ *
      (exp (-(ρ ^ 2 / (1 - ρ ^ 2)) * x ^ 2 + 0 * x) * exp (-(ρ ^ 2 / (1 - ρ ^ 2)) * y ^ 2 + 0 * y)) := by
    intro x y
    unfold mehler
    rw [show (-ρ) ^ 2 = ρ ^ 2 by ring, mul_mul_mul_comm, ← mul_inv, Real.mul_self_sqrt ht.le, ← exp_add, ← exp_add]
    congr 2
    field_simp
    ring
  simp only [e]
  have := (gauss_exp hc 0).1.mul_prod (gauss_exp hc 0).1
  refine ⟨this.const_mul _, ?_⟩
  rw [integral_const_mul, integral_prod_mul (fun x => exp (-(ρ ^ 2 / (1 - ρ ^ 2)) * x ^ 2 + 0 * x))
    (fun y => exp (-(ρ ^ 2 / (1 - ρ ^ 2)) * y ^ 2 + 0 * y)), (gauss_exp hc 0).2, e1, Real.sqrt_div ht'.le, inv_div]
  have h1 := (Real.sqrt_pos.2 ht).ne'
  have h2 := (Real.sqrt_pos.2 ht').ne'
  field_simp
  rw [Real.sq_sqrt ht.le, Real.sq_sqrt ht'.le]
  simp
  

theorem mehler_one {ρ : ℝ} (hρ : ρ ^ 2 < 1) : Integrable (fun z : ℝ × ℝ => mehler ρ z.1 z.2) (stdG.prod stdG) ∧
    ∫ z : ℝ × ℝ, mehler ρ z.1 z.2 ∂(stdG.prod stdG) = 1 := by
  have hI : Integrable (fun z : ℝ × ℝ => mehler ρ z.1 z.2) (stdG.prod stdG) := by
    have : MemLp (fun z : ℝ × ℝ => mehler ρ z.1 z.2) 2 (stdG.prod stdG) :=
      (memLp_two_iff_integrable_sq (measurable_mehler ρ).aestronglyMeasurable).2 (mehler_sq hρ).1
    exact this.integrable (by norm_num)
  refine ⟨hI, ?_⟩
  rw [integral_prod _ hI]
  have : ∀ x, ∫ y, mehler ρ x y ∂stdG = 1 := by
    intro x
    have := mehler_integral hρ (f := fun _ => 1) measurable_const x
    simpa using this.symm
  simp [this]

theorem integral_mul_sq_le {α : Type*} [MeasurableSpace α] {ν : Measure α} {F G : α → ℝ} (hF : MemLp F 2 ν) (hG : MemLp G 2 ν) :
    |∫ a, F a * G a ∂ν| ≤ √(∫ a, F a ^ 2 ∂ν) * √(∫ a, G a ^ 2 ∂ν) := by
  have h := integral_mul_le_Lp_mul_Lq_of_nonneg (μ := ν) (f := fun a => |F a|) (g := fun a => |G a|) Real.HolderConjugate.two_two
    (Filter.Eventually.of_forall fun a => abs_nonneg _) (Filter.Eventually.of_forall fun a => abs_nonneg _)
    (by simpa using hF.norm) (by simpa using hG.norm)
  have e : ∀ z : ℝ, |z| ^ (2:ℝ) = z ^ 2 := fun z => by rw [Real.rpow_two, sq_abs]
  simp only [e, ← Real.sqrt_eq_rpow, ← abs_mul] at h
  exact (abs_integral_le_integral_abs).trans h

theorem integral_stdG_neg (g : ℝ → ℝ) : ∫ y, g (-y) ∂stdG = ∫ y, g y ∂stdG := by
  have h : stdG.map (fun x : ℝ => -x) = stdG := by rw [stdG, gaussianReal_map_neg, neg_zero]
  have := (MeasurableEquiv.neg ℝ).measurableEmbedding.integral_map (μ := stdG) g
  have e : (⇑(MeasurableEquiv.neg ℝ) : ℝ → ℝ) = fun x => -x := rfl
  rw [e, h] at this
  exact this.symm

/-- The kernel averaged over the two signs of the correlation is close to 1 in mean square. -/
theorem kernel_bound {ρ : ℝ} (hρ : ρ ^ 2 ≤ 1 / 4) {f : ℝ → ℝ} (hf : Measurable f) (he : ∀ x, f (-x) = f x)
    (hi : Integrable (fun x => f x ^ 2) stdG) :
    Integrable (fun z : ℝ × ℝ => mehler ρ z.1 z.2 * (f z.1 * f z.2)) (stdG.prod stdG) ∧
    |∫ z : ℝ × ℝ, mehler ρ z.1 z.2 * (f z.1 * f z.2) ∂(stdG.prod stdG) - (∫ x, f x ∂stdG) ^ 2| ≤ 2 * ρ ^ 2 * ∫ x, f x ^ 2 ∂stdG := by
  have h1 : ρ ^ 2 < 1 := by linarith
  have h1' : (-ρ) ^ 2 < 1 := by linarith [neg_sq ρ]
  have hk : ∀ r : ℝ, r ^ 2 < 1 → MemLp (fun z : ℝ × ℝ => mehler r z.1 z.2) 2 (stdG.prod stdG) := fun r hr =>
    (memLp_two_iff_integrable_sq (measurable_mehler r).aestronglyMeasurable).2 (mehler_sq hr).1
  have hF2 : Integrable (fun z : ℝ × ℝ => (f z.1 * f z.2) ^ 2) (stdG.prod stdG) := by
    simp only [mul_pow]; exact hi.mul_prod hi
  have hFm : MemLp (fun z : ℝ × ℝ => f z.1 * f z.2) 2 (stdG.prod stdG) :=
    (memLp_two_iff_integrable_sq (by
      exact ((hf.comp measurable_fst).mul (hf.comp measurable_snd)).aestronglyMeasurable)).2 hF2
  have hF : ∫ z : ℝ × ℝ, (f z.1 * f z.2) ^ 2 ∂(stdG.prod stdG) = (∫ x, f x ^ 2 ∂stdG) ^ 2 := by
    simp only [mul_pow]
    rw [integral_prod_mul (fun x => f x ^ 2) (fun x => f x ^ 2), sq]
  have hI : ∀ r : ℝ, r ^ 2 < 1 → Integrable (fun z : ℝ × ℝ => mehler r z.1 z.2 * (f z.1 * f z.2)) (stdG.prod stdG) :=
    fun r hr => (hk r hr).integrable_mul hFm
  have hsym : ∫ z : ℝ × ℝ, mehler (-ρ) z.1 z.2 * (f z.1 * f z.2) ∂(stdG.prod stdG) =
      ∫ z : ℝ × ℝ, mehler ρ z.1 z.2 * (f z.1 * f z.2) ∂(stdG.prod stdG) := by
    rw [integral_prod _ (hI _ h1'), integral_prod _ (hI _ h1)]
    congr 1
    funext x
    rw [← integral_stdG_neg (fun y => mehler ρ x y * (f x * f y))]
    simp only [mehler_neg, he]
  refine ⟨hI _ h1, ?_⟩
  have hG : MemLp (fun z : ℝ × ℝ => (1 / 2) * mehler ρ z.1 z.2 + (1 / 2) * mehler (-ρ) z.1 z.2 - 1) 2 (stdG.prod stdG) :=
    (((hk _ h1).const_mul _).add ((hk _ h1').const_mul _)).sub (memLp_const 1)
  have hm : (∫ x, f x ∂stdG) ^ 2 = ∫ z : ℝ × ℝ, f z.1 * f z.2 ∂(stdG.prod stdG) := by rw [integral_prod_mul f f, sq]
  have hA : ∫ z : ℝ × ℝ, mehler ρ z.1 z.2 * (f z.1 * f z.2) ∂(stdG.prod stdG) - (∫ x, f x ∂stdG) ^ 2 =
      ∫ z : ℝ × ℝ, (f z.1 * f z.2) * ((1 / 2) * mehler ρ z.1 z.2 + (1 / 2) * mehler (-ρ) z.1 z.2 - 1) ∂(stdG.prod stdG) := by
    have J1 := (hI _ h1).const_mul (1 / 2)
    have J2 := (hI _ h1').const_mul (1 / 2)
    have J3 : Integrable (fun z : ℝ × ℝ => f z.1 * f z.2) (stdG.prod stdG) := hFm.integrable (by norm_num)
    have J12 : Integrable (fun z : ℝ × ℝ => (1 / 2) * (mehler ρ z.1 z.2 * (f z.1 * f z.2)) + (1 / 2) * (mehler (-ρ) z.1 z.2 * (f z.1 * f z.2)))
      (stdG.prod stdG) := J1.add J2
    have e : (fun z : ℝ × ℝ => (f z.1 * f z.2) * ((1 / 2) * mehler ρ z.1 z.2 + (1 / 2) * mehler (-ρ) z.1 z.2 - 1)) =
        fun z => ((1 / 2) * (mehler ρ z.1 z.2 * (f z.1 * f z.2)) + (1 / 2) * (mehler (-ρ) z.1 z.2 * (f z.1 * f z.2))) - f z.1 * f z.2 := by
      funext z; ring
    rw [e, integral_sub J12 J3, integral_add J1 J2, integral_const_mul, integral_const_mul, hsym, ← hm]
    ring
  have hG2 : ∫ z : ℝ × ℝ, ((1 / 2) * mehler ρ z.1 z.2 + (1 / 2) * mehler (-ρ) z.1 z.2 - 1) ^ 2 ∂(stdG.prod stdG) = ρ ^ 4 / (1 - ρ ^ 4) := by
    obtain ⟨a1, b1⟩ := mehler_sq h1
    obtain ⟨a2, b2⟩ := mehler_sq h1'
    obtain ⟨a3, b3⟩ := mehler_cross h1
    obtain ⟨a4, b4⟩ := mehler_one h1
    obtain ⟨a5, b5⟩ := mehler_one h1'
    have e : (fun z : ℝ × ℝ => ((1 / 2) * mehler ρ z.1 z.2 + (1 / 2) * mehler (-ρ) z.1 z.2 - 1) ^ 2) = fun z =>
        ((1 / 4) * mehler ρ z.1 z.2 ^ 2 + (1 / 4) * mehler (-ρ) z.1 z.2 ^ 2 + (1 / 2) * (mehler ρ z.1 z.2 * mehler (-ρ) z.1 z.2)) -
        (mehler ρ z.1 z.2 + mehler (-ρ) z.1 z.2 - 1) := by funext z; ring
    have k1 := a1.const_mul (1 / 4)
    have k2 := a2.const_mul (1 / 4)
    have k3 := a3.const_mul (1 / 2)
    have k12 : Integrable (fun z : ℝ × ℝ => (1 / 4) * mehler ρ z.1 z.2 ^ 2 + (1 / 4) * mehler (-ρ) z.1 z.2 ^ 2) (stdG.prod stdG) := k1.add k2
    have k123 : Integrable (fun z : ℝ × ℝ => (1 / 4) * mehler ρ z.1 z.2 ^ 2 + (1 / 4) * mehler (-ρ) z.1 z.2 ^ 2 +
      (1 / 2) * (mehler ρ z.1 z.2 * mehler (-ρ) z.1 z.2)) (stdG.prod stdG) := k12.add k3
    have k45 : Integrable (fun z : ℝ × ℝ => mehler ρ z.1 z.2 + mehler (-ρ) z.1 z.2) (stdG.prod stdG) := a4.add a5
    have k451 : Integrable (fun z : ℝ × ℝ => mehler ρ z.1 z.2 + mehler (-ρ) z.1 z.2 - 1) (stdG.prod stdG) := k45.sub (integrable_const 1)
    rw [e, integral_sub k123 k451, integral_add k12 k3, integral_add k1 k2, integral_sub k45 (integrable_const 1), integral_add a4 a5,
      integral_const_mul, integral_const_mul, integral_const_mul, b1, b2, b3, b4, b5]
    simp only [integral_const, probReal_univ, one_smul]
    have t1 : 1 - ρ ^ 2 ≠ 0 := by intro h; linarith
    have t2 : 1 + ρ ^ 2 ≠ 0 := by positivity
    have t3 : 1 - ρ ^ 4 ≠ 0 := by
      rw [show 1 - ρ ^ 4 = (1 - ρ ^ 2) * (1 + ρ ^ 2) by ring]; exact mul_ne_zero t1 t2
    rw [show (-ρ) ^ 2 = ρ ^ 2 by ring]
    field_simp
    ring
  have hcs := integral_mul_sq_le hFm hG
  rw [← hA, hF, hG2] at hcs
  refine hcs.trans ?_
  have hS : 0 ≤ ∫ x, f x ^ 2 ∂stdG := integral_nonneg fun x => sq_nonneg _
  rw [Real.sqrt_sq hS, mul_comm]
  refine mul_le_mul_of_nonneg_right ?_ hS
  have h4 : ρ ^ 4 ≤ 1 / 16 := by
    have := mul_le_mul hρ hρ (sq_nonneg ρ) (by norm_num)
    calc ρ ^ 4 = ρ ^ 2 * ρ ^ 2 := by ring
      _ ≤ _ := this
      _ = _ := by norm_num
  refine Real.sqrt_le_iff.2 ⟨by positivity, ?_⟩
  rw [div_le_iff₀ (by linarith)]
  have : 0 ≤ ρ ^ 4 := by positivity
  nlinarith

/-- **Gebelein's inequality** for even functions. -/
theorem gebelein {Ω : Type*} [MeasurableSpace Ω] {μ : Measure Ω} {X Y : Ω → ℝ} (h : HasGaussianLaw (fun ω => (X ω, Y ω)) μ)
    (hX : ∫ ω, X ω ∂μ = 0) (hY : ∫ ω, Y ω ∂μ = 0) (hX2 : ∫ ω, X ω ^ 2 ∂μ = 1) (hY2 : ∫ ω, Y ω ^ 2 ∂μ = 1)
    {f : ℝ → ℝ} (hf : Measurable f) (he : ∀ x, f (-x) = f x) (hi : Integrable (fun x => f x ^ 2) stdG) :
    Integrable (fun ω => f (X ω)) μ ∧ ∫ ω, f (X ω) ∂μ = ∫ x, f x ∂stdG ∧ Integrable (fun ω => f (X ω) * f (Y ω)) μ ∧
    |∫ ω, f (X ω) * f (Y ω) ∂μ - (∫ x, f x ∂stdG) ^ 2| ≤ 8 * (∫ ω, X ω * Y ω ∂μ) ^ 2 * ∫ x, f x ^ 2 ∂stdG := by
  have hp := h.isProbabilityMeasure
  have gX : HasGaussianLaw X μ := h.fst
  have gY : HasGaussianLaw Y μ := h.snd
  have law : ∀ {Z : Ω → ℝ}, HasGaussianLaw Z μ → ∫ ω, Z ω ∂μ = 0 → ∫ ω, Z ω ^ 2 ∂μ = 1 → μ.map Z = stdG := by
    intro Z g h0 h1
    have e := g.map_eq_gaussianReal
    have hv : Var[Z; μ] = 1 := by rw [variance_eq_sub g.memLp_two, h0]; simpa using h1
    rw [h0, hv] at e
    simpa using e
  have lX := law gX hX hX2
  have lY := law gY hY hY2
  have comp : ∀ {Z : Ω → ℝ}, HasGaussianLaw Z μ → μ.map Z = stdG → MemLp (fun ω => f (Z ω)) 2 μ ∧ ∫ ω, f (Z ω) ∂μ = ∫ x, f x ∂stdG ∧
      ∫ ω, f (Z ω) ^ 2 ∂μ = ∫ x, f x ^ 2 ∂stdG := by
    intro Z g l
    have m := g.aemeasurable
    refine ⟨?_, ?_, ?_⟩
    · refine (memLp_two_iff_integrable_sq (hf.comp_aemeasurable m).aestronglyMeasurable).2 ?_
      rw [← l] at hi
      exact hi.comp_aemeasurable m
    · rw [← l, integral_map m hf.aestronglyMeasurable]
    · rw [← l, integral_map m (hf.pow_const 2).aestronglyMeasurable]
  obtain ⟨mX, iX, sX⟩ := comp gX lX
  obtain ⟨mY, iY, sY⟩ := comp gY lY
  have hprod : Integrable (fun ω => f (X ω) * f (Y ω)) μ := mX.integrable_mul mY
  refine ⟨mX.integrable (by norm_num), iX, hprod, ?_⟩
  have hS : 0 ≤ ∫ x, f x ^ 2 ∂stdG := integral_nonneg fun x => sq_nonneg _
  obtain ⟨ρ, hρ⟩ : ∃ ρ, ρ = ∫ ω, X ω * Y ω ∂μ := ⟨_, rfl⟩
  rw [← hρ]
  by_cases hs : ρ ^ 2 ≤ 1 / 4
  swap
  · -- large correlations
    have h1 := integral_mul_sq_le mX mY
    rw [sX, sY, Real.mul_self_sqrt hS] at h1
    have h2 := integral_mul_sq_le mX (memLp_const (1:ℝ))
    simp only [mul_one, one_pow, integral_const, probReal_univ, one_smul, Real.sqrt_one, iX, sX] at h2
    have h3 : (∫ x, f x ∂stdG) ^ 2 ≤ ∫ x, f x ^ 2 ∂stdG := by
      have := pow_le_pow_left₀ (abs_nonneg _) h2 2
      rwa [sq_abs, Real.sq_sqrt hS] at this
    push Not at hs
    have h4 : |∫ ω, f (X ω) * f (Y ω) ∂μ - (∫ x, f x ∂stdG) ^ 2| ≤ 2 * ∫ x, f x ^ 2 ∂stdG := by
      refine (abs_sub _ _).trans ?_
      rw [abs_of_nonneg (sq_nonneg (∫ x, f x ∂stdG))]
      linarith
    refine h4.trans (mul_le_mul_of_nonneg_right ?_ hS)
    linarith
  · have h1 : ρ ^ 2 < 1 := by linarith
    have ht : 0 < 1 - ρ ^ 2 := by linarith
    have hr : √(1 - ρ ^ 2) ≠ 0 := (Real.sqrt_pos.2 ht).ne'
    obtain ⟨k1, k2⟩ := kernel_bound hs hf he hi
    -- the innovation
    let W : Ω → ℝ := fun ω => (√(1 - ρ ^ 2))⁻¹ * (Y ω - ρ * X ω)
    have gXW : HasGaussianLaw (fun ω => (X ω, W ω)) μ := by
      have := h.map_fun ((ContinuousLinearMap.fst ℝ ℝ ℝ).prod
        ((√(1 - ρ ^ 2))⁻¹ • (ContinuousLinearMap.snd ℝ ℝ ℝ - ρ • ContinuousLinearMap.fst ℝ ℝ ℝ)))
      exact this
    have gW : HasGaussianLaw W μ := gXW.snd
    have iXX : Integrable (fun ω => X ω ^ 2) μ := gX.memLp_two.integrable_sq
    have iYY : Integrable (fun ω => Y ω ^ 2) μ := gY.memLp_two.integrable_sq
    have iXY : Integrable (fun ω => X ω * Y ω) μ := gX.memLp_two.integrable_mul gY.memLp_two
    have mW : ∫ ω, W ω ∂μ = 0 := by
      show ∫ ω, (√(1 - ρ ^ 2))⁻¹ * (Y ω - ρ * X ω) ∂μ = 0
      rw [integral_const_mul, integral_sub gY.integrable (gX.integrable.const_mul ρ), integral_const_mul, hX, hY]; simp
    have vW : ∫ ω, W ω ^ 2 ∂μ = 1 := by
      have e : (fun ω => W ω ^ 2) = fun ω => (1 - ρ ^ 2)⁻¹ * ((Y ω ^ 2 - 2 * ρ * (X ω * Y ω)) + ρ ^ 2 * X ω ^ 2) := by
        funext ω
        show ((√(1 - ρ ^ 2))⁻¹ * (Y ω - ρ * X ω)) ^ 2 = _
        rw [mul_pow, inv_pow, Real.sq_sqrt ht.le]; ring
      have j1 : Integrable (fun ω => Y ω ^ 2 - 2 * ρ * (X ω * Y ω)) μ := iYY.sub (iXY.const_mul _)
      rw [e, integral_const_mul, integral_add j1 (iXX.const_mul _), integral_sub iYY (iXY.const_mul _), integral_const_mul,
        integral_const_mul, hX2, hY2, ← hρ]
      field_simp
      ring
    have cXW : cov[X, W; μ] = 0 := by
      rw [covariance_eq_sub gX.memLp_two gW.memLp_two, hX, zero_mul, sub_zero]
      show ∫ ω, X ω * ((√(1 - ρ ^ 2))⁻¹ * (Y ω - ρ * X ω)) ∂μ = 0
      have e : (fun ω => X ω * ((√(1 - ρ ^ 2))⁻¹ * (Y ω - ρ * X ω))) = fun ω => (√(1 - ρ ^ 2))⁻¹ * (X ω * Y ω - ρ * X ω ^ 2) := by
        funext ω; ring
      rw [e, integral_const_mul, integral_sub iXY (iXX.const_mul _), integral_const_mul, hX2, ← hρ]
      simp
    have hind := gXW.indepFun_of_covariance_eq_zero cXW
    have lXW : μ.map (fun ω => (X ω, W ω)) = stdG.prod stdG := by
      rw [(indepFun_iff_map_prod_eq_prod_map_map gX.aemeasurable gW.aemeasurable).1 hind, lX, law gW mW vW]
    have eY : ∀ ω, Y ω = ρ * X ω + √(1 - ρ ^ 2) * W ω := by
      intro ω
      show Y ω = ρ * X ω + √(1 - ρ ^ 2) * ((√(1 - ρ ^ 2))⁻¹ * (Y ω - ρ * X ω))
      rw [← mul_assoc, mul_inv_cancel₀ hr]; ring
    have hmeas : Measurable fun z : ℝ × ℝ => f z.1 * f (ρ * z.1 + √(1 - ρ ^ 2) * z.2) :=
      (hf.comp measurable_fst).mul (hf.comp (by fun_prop))
    have q1 : ∫ ω, f (X ω) * f (Y ω) ∂μ = ∫ z : ℝ × ℝ, f z.1 * f (ρ * z.1 + √(1 - ρ ^ 2) * z.2) ∂(stdG.prod stdG) := by
      rw [← lXW, integral_map gXW.aemeasurable hmeas.aestronglyMeasurable]
      simp only [← eY]
    have q2 : Integrable (fun z : ℝ × ℝ => f z.1 * f (ρ * z.1 + √(1 - ρ ^ 2) * z.2)) (stdG.prod stdG) := by
      rw [← lXW, integrable_map_measure hmeas.aestronglyMeasurable gXW.aemeasurable]
      have : ((fun z : ℝ × ℝ => f z.1 * f (ρ * z.1 + √(1 - ρ ^ 2) * z.2)) ∘ fun ω => (X ω, W ω)) = fun ω => f (X ω) * f (Y ω) := by
        funext ω; simp only [Function.comp, ← eY]
      rw [this]; exact hprod
    have q3 : ∫ ω, f (X ω) * f (Y ω) ∂μ = ∫ z : ℝ × ℝ, mehler ρ z.1 z.2 * (f z.1 * f z.2) ∂(stdG.prod stdG) := by
      rw [q1, integral_prod _ q2, integral_prod _ k1]
      congr 1
      funext x
      simp only
      rw [integral_const_mul, mehler_integral h1 hf, ← integral_const_mul]
      congr 1
      funext y
      ring
    rw [q3]
    refine k2.trans (mul_le_mul_of_nonneg_right ?_ hS)
    have := sq_nonneg ρ
    linarith

end

end MFA
