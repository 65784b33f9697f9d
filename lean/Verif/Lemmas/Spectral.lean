import Verif.Spec.Basic
import Mathlib.Analysis.SpecialFunctions.ImproperIntegrals
import Mathlib.MeasureTheory.Integral.IntegralEqImproper
import Mathlib.MeasureTheory.Measure.Haar.NormedSpace
import Mathlib.Analysis.SpecialFunctions.Trigonometric.Bounds

/-! The spectral representation of the powers of the distance, `0 < a < 2`. -/

namespace MFA

open Finset MeasureTheory Set

noncomputable section

theorem cos_kernel_integrable {a : ℝ} (h0 : 0 < a) (h2 : a < 2) :
    IntegrableOn (fun θ : ℝ => (1 - Real.cos θ) * θ ^ (-1 - a)) (Ioi 0) := by
  have hm : AEStronglyMeasurable (fun θ : ℝ => (1 - Real.cos θ) * θ ^ (-1 - a)) volume := by
    apply Measurable.aestronglyMeasurable; fun_prop
  rw [← Ioc_union_Ioi_eq_Ioi (zero_le_one (α := ℝ))]
  refine IntegrableOn.union ?_ ?_
  · have h := (intervalIntegral.intervalIntegrable_rpow' (a := 0) (b := 1) (by linarith : -1 < 1 - a))
    rw [intervalIntegrable_iff_integrableOn_Ioc_of_le zero_le_one] at h
    refine h.mono' hm.restrict ?_
    refine (ae_restrict_iff' measurableSet_Ioc).2 (Filter.Eventually.of_forall fun θ hθ => ?_)
    have hp : 0 < θ := hθ.1
    have h1 : 0 ≤ 1 - Real.cos θ := by linarith [Real.cos_le_one θ]
    have h3 : 1 - Real.cos θ ≤ θ ^ 2 := by nlinarith [Real.one_sub_sq_div_two_le_cos (x := θ), sq_nonneg θ]
    rw [Real.norm_of_nonneg (mul_nonneg h1 (Real.rpow_nonneg hp.le _))]
    refine (mul_le_mul_of_nonneg_right h3 (Real.rpow_nonneg hp.le _)).trans (le_of_eq ?_)
    rw [← Real.rpow_natCast, ← Real.rpow_add hp]
    congr 1; push_cast; ring
  · have h := (integrableOn_Ioi_rpow_of_lt (by linarith : -1 - a < -1) zero_lt_one).const_mul 2
    refine h.mono' hm.restrict ?_
    refine (ae_restrict_iff' measurableSet_Ioi).2 (Filter.Eventually.of_forall fun θ hθ => ?_)
    have hp : 0 < θ := lt_trans zero_lt_one hθ
    have h1 : 0 ≤ 1 - Real.cos θ := by linarith [Real.cos_le_one θ]
    rw [Real.norm_of_nonneg (mul_nonneg h1 (Real.rpow_nonneg hp.le _))]
    exact mul_le_mul_of_nonneg_right (by linarith [Real.neg_one_le_cos θ]) (Real.rpow_nonneg hp.le _)

/-- The constant. -/
def specConst (a : ℝ) : ℝ := ∫ θ in Ioi (0:ℝ), (1 - Real.cos θ) * θ ^ (-1 - a)

theorem specConst_pos {a : ℝ} (h0 : 0 < a) (h2 : a < 2) : 0 < specConst a := by
  rw [specConst, setIntegral_pos_iff_support_of_nonneg_ae]
  · have hsub : Ioo 0 (2 * Real.pi) ⊆ Function.support (fun θ : ℝ => (1 - Real.cos θ) * θ ^ (-1 - a)) ∩ Ioi 0 := by
      intro θ hθ
      refine ⟨?_, hθ.1⟩
      rw [Function.mem_support]
      refine mul_ne_zero ?_ (Real.rpow_pos_of_pos hθ.1 _).ne'
      intro h
      have hc : Real.cos θ = 1 := by linarith
      rw [Real.cos_eq_one_iff_of_lt_of_lt (by linarith [hθ.1, Real.pi_pos]) hθ.2] at hc
      exact hθ.1.ne' hc
    refine lt_of_lt_of_le ?_ (measure_mono hsub)
    rw [Real.volume_Ioo]
    simp [Real.pi_pos]
  · refine (ae_restrict_iff' measurableSet_Ioi).2 (Filter.Eventually.of_forall fun θ hθ => ?_)
    exact mul_nonneg (by linarith [Real.cos_le_one θ]) (Real.rpow_nonneg (le_of_lt hθ) _)
  · exact cos_kernel_integrable h0 h2

theorem cos_kernel_scaled {a : ℝ} (h0 : 0 < a) (h2 : a < 2) (x : ℝ) :
    IntegrableOn (fun θ : ℝ => (1 - Real.cos (x * θ)) * θ ^ (-1 - a)) (Ioi 0) ∧
    ∫ θ in Ioi (0:ℝ), (1 - Real.cos (x * θ)) * θ ^ (-1 - a) = |x| ^ a * specConst a := by
  by_cases hx : x = 0
  · subst hx
    simp [Real.zero_rpow h0.ne', integrableOn_zero]
  have hp : 0 < |x| := abs_pos.2 hx
  have e : ∀ θ ∈ Ioi (0:ℝ), (1 - Real.cos (x * θ)) * θ ^ (-1 - a) =
      |x| ^ (1 + a) * ((1 - Real.cos (|x| * θ)) * (|x| * θ) ^ (-1 - a)) := by
    intro θ hθ
    have hθ : 0 < θ := hθ
    have hc : Real.cos (|x| * θ) = Real.cos (x * θ) := by
      rw [← Real.cos_abs (x * θ), abs_mul, abs_of_pos hθ]
    rw [hc, Real.mul_rpow hp.le hθ.le]
    have : |x| ^ (1 + a) * |x| ^ (-1 - a) = 1 := by rw [← Real.rpow_add hp]; norm_num
    calc _ = (|x| ^ (1 + a) * |x| ^ (-1 - a)) * ((1 - Real.cos (x * θ)) * θ ^ (-1 - a)) := by rw [this, one_mul]
      _ = _ := by ring
  constructor
  · refine IntegrableOn.congr_fun ?_ (fun θ hθ => (e θ hθ).symm) measurableSet_Ioi
    refine Integrable.const_mul ?_ _
    have := (integrableOn_Ioi_comp_mul_left_iff (fun θ : ℝ => (1 - Real.cos θ) * θ ^ (-1 - a)) 0 hp).2
      (by rw [mul_zero]; exact cos_kernel_integrable h0 h2)
    exact this
  · rw [setIntegral_congr_fun measurableSet_Ioi e, integral_const_mul,
      integral_comp_mul_left_Ioi (fun θ : ℝ => (1 - Real.cos θ) * θ ^ (-1 - a)) 0 hp, mul_zero, smul_eq_mul, ← mul_assoc]
    congr 1
    rw [← Real.rpow_neg_one, ← Real.rpow_add hp]
    congr 1; ring

/-- Modulus squared of the transfer function of a combination. -/
def modSq {ι : Type*} (S : Finset ι) (b p : ι → ℝ) (θ : ℝ) : ℝ :=
  (∑ s ∈ S, b s * Real.cos (p s * θ)) ^ 2 + (∑ s ∈ S, b s * Real.sin (p s * θ)) ^ 2

theorem modSq_nonneg {ι : Type*} (S : Finset ι) (b p : ι → ℝ) (θ : ℝ) : 0 ≤ modSq S b p θ := by unfold modSq; positivity

theorem modSq_eq {ι : Type*} (S : Finset ι) (b p : ι → ℝ) (θ : ℝ) :
    modSq S b p θ = ∑ s ∈ S, ∑ t ∈ S, b s * b t * Real.cos ((p s - p t) * θ) := by
  rw [modSq, sq, sq, sum_mul_sum, sum_mul_sum, ← sum_add_distrib]
  refine sum_congr rfl fun s _ => ?_
  rw [← sum_add_distrib]
  refine sum_congr rfl fun t _ => ?_
  rw [sub_mul, Real.cos_sub]; ring

/-- The quadratic form of a power of the distance on combinations with sum zero, in terms of the transfer function. -/
theorem spectral_form {ι : Type*} {a : ℝ} (h0 : 0 < a) (h2 : a < 2) (S : Finset ι) (b p : ι → ℝ) (hb : ∑ s ∈ S, b s = 0) :
    IntegrableOn (fun θ : ℝ => modSq S b p θ * θ ^ (-1 - a)) (Ioi 0) ∧
    -(∑ s ∈ S, ∑ t ∈ S, b s * b t * |p s - p t| ^ a) = (specConst a)⁻¹ * ∫ θ in Ioi (0:ℝ), modSq S b p θ * θ ^ (-1 - a) := by
  have e : (fun θ : ℝ => modSq S b p θ * θ ^ (-1 - a)) =
      fun θ => ∑ s ∈ S, ∑ t ∈ S, -(b s * b t) * ((1 - Real.cos ((p s - p t) * θ)) * θ ^ (-1 - a)) := by
    funext θ
    have h1 : ∑ s ∈ S, ∑ t ∈ S, b s * b t = 0 := by rw [← sum_mul_sum, hb, zero_mul]
    have h3 : modSq S b p θ = ∑ s ∈ S, ∑ t ∈ S, -(b s * b t) * (1 - Real.cos ((p s - p t) * θ)) := by
      rw [modSq_eq, ← sub_zero (∑ s ∈ S, ∑ t ∈ S, b s * b t * Real.cos ((p s - p t) * θ)), ← h1, ← sum_sub_distrib]
      refine sum_congr rfl fun s _ => ?_
      rw [← sum_sub_distrib]
      exact sum_congr rfl fun t _ => by ring
    rw [h3, sum_mul]
    refine sum_congr rfl fun s _ => ?_
    rw [sum_mul]
    exact sum_congr rfl fun t _ => by ring
  have hi : ∀ s ∈ S, ∀ t ∈ S, IntegrableOn (fun θ : ℝ => -(b s * b t) * ((1 - Real.cos ((p s - p t) * θ)) * θ ^ (-1 - a))) (Ioi 0) :=
    fun s _ t _ => (cos_kernel_scaled h0 h2 (p s - p t)).1.const_mul _
  have hi' : ∀ s ∈ S, IntegrableOn (fun θ : ℝ => ∑ t ∈ S, -(b s * b t) * ((1 - Real.cos ((p s - p t) * θ)) * θ ^ (-1 - a))) (Ioi 0) :=
    fun s hs => integrable_finsetSum _ (hi s hs)
  rw [e]
  refine ⟨integrable_finsetSum _ hi', ?_⟩
  rw [integral_finsetSum _ hi', ← sum_neg_distrib, mul_sum]
  refine sum_congr rfl fun s hs => ?_
  rw [integral_finsetSum _ (hi s hs), ← sum_neg_distrib, mul_sum]
  refine sum_congr rfl fun t _ => ?_
  rw [integral_const_mul, (cos_kernel_scaled h0 h2 (p s - p t)).2]
  field_simp [(specConst_pos h0 h2).ne']

end

end MFA
