import Verif.Lemmas.Gebelein
import Mathlib.Analysis.SpecialFunctions.Gaussian.GaussianIntegral

/-! Moments of powers and logarithms of a standard normal variable. -/

namespace MFA

open MeasureTheory ProbabilityTheory Real Set

noncomputable section

theorem integrable_abs_rpow {s : ℝ} (hs : -1 < s) : Integrable (fun x => |x| ^ s) stdG := by
  rw [integrable_stdG_iff]
  have h0 : IntegrableOn (fun x : ℝ => x ^ s * exp (-(1 / 2) * x ^ 2)) (Ioi 0) := integrableOn_rpow_mul_exp_neg_mul_sq (by norm_num) hs
  have h1 : Integrable (fun x : ℝ => |x| ^ s * exp (-(1 / 2) * x ^ 2)) volume := by
    have hpos : IntegrableOn (fun x : ℝ => |x| ^ s * exp (-(1 / 2) * x ^ 2)) (Ioi 0) := by
      refine h0.congr_fun (fun x hx => ?_) measurableSet_Ioi
      simp only [abs_of_pos (mem_Ioi.1 hx)]
    have hneg : IntegrableOn (fun x : ℝ => |x| ^ s * exp (-(1 / 2) * x ^ 2)) (Iio 0) := by
      have := hpos.comp_neg
      have e : -Ioi (0:ℝ) = Iio 0 := by ext x; simp
      rw [e] at this
      refine this.congr_fun (fun x _ => ?_) measurableSet_Iio
      simp
    rw [← integrableOn_univ, ← @Iio_union_Ici _ _ (0 : ℝ), integrableOn_union, integrableOn_Ici_iff_integrableOn_Ioi]
    exact ⟨hneg, hpos⟩
  refine (h1.const_mul (√(2 * π))⁻¹).congr (Filter.Eventually.of_forall fun x => ?_)
  simp only [gaussianPDFReal, NNReal.coe_one, mul_one, sub_zero]
  rw [mul_assoc, mul_comm (|x| ^ s), show -(1 / 2) * x ^ 2 = -x ^ 2 / 2 by ring]

theorem abs_log_le {t a : ℝ} (ht : 0 < t) (ha : 0 < a) : |log t| ≤ (t ^ a + t ^ (-a)) / a := by
  have h1 := log_le_rpow_div ht.le ha
  have h2 := log_le_rpow_div (inv_pos.2 ht).le ha
  rw [log_inv, inv_rpow ht.le, ← rpow_neg ht.le] at h2
  have p1 : 0 ≤ t ^ a / a := by positivity
  have p2 : 0 ≤ t ^ (-a) / a := by positivity
  rw [add_div, abs_le]
  constructor <;> linarith

/-- The functions `|x|^s (log |x|)^n` are integrable for `s > -1`. -/
theorem integrable_rpow_log {s : ℝ} (hs : -1 < s) (n : ℕ) : Integrable (fun x => |x| ^ s * log |x| ^ n) stdG := by
  obtain ⟨a, had⟩ : ∃ a : ℝ, a = (s + 1) / (2 * (n + 1)) := ⟨_, rfl⟩
  have ha : 0 < a := by
    have : 0 < s + 1 := by linarith
    rw [had]; positivity
  have han : a * n < s + 1 := by
    have h1 : 0 < s + 1 := by linarith
    have : a * n = (s + 1) * (n / (2 * (n + 1))) := by rw [had]; field_simp
    rw [this]
    have h2 : (n : ℝ) / (2 * (n + 1)) < 1 := by
      rw [div_lt_one (by positivity)]
      have : (0:ℝ) ≤ n := n.cast_nonneg
      linarith
    nlinarith
  have hp : 0 ≤ a * n := by positivity
  have hB : Integrable (fun x => (2 / a) ^ n * (|x| ^ (s + a * n) + |x| ^ (s - a * n))) stdG :=
    ((integrable_abs_rpow (by linarith)).add (integrable_abs_rpow (by linarith))).const_mul _
  refine hB.mono' ?_ ?_
  · exact (by fun_prop : Measurable fun x : ℝ => |x| ^ s * log |x| ^ n).aestronglyMeasurable
  · have : ∀ᵐ x ∂stdG, x ≠ 0 := by
      have : NullSingletonClass stdG := nullSingletonClass_gaussianReal one_ne_zero
      rw [ae_iff]; simp
    filter_upwards [this] with x hx
    have hx' : 0 < |x| := abs_pos.2 hx
    rw [norm_mul, norm_pow, Real.norm_eq_abs, Real.norm_eq_abs, abs_of_nonneg (Real.rpow_nonneg (abs_nonneg x) s)]
    have h1 := pow_le_pow_left₀ (abs_nonneg _) (abs_log_le hx' ha) n
    have h2 : ((|x| ^ a + |x| ^ (-a)) / a) ^ n ≤ (2 / a) ^ n * (|x| ^ (a * n) + |x| ^ (-(a * n))) := by
      rw [div_pow, div_pow, div_mul_eq_mul_div]
      refine div_le_div_of_nonneg_right ?_ (pow_nonneg ha.le n)
      have p1 : 0 < |x| ^ a := by positivity
      have p2 : 0 < |x| ^ (-a) := by positivity
      have e1 : |x| ^ (a * n) = (|x| ^ a) ^ n := by rw [rpow_mul hx'.le, rpow_natCast]
      have e2 : |x| ^ (-(a * n)) = (|x| ^ (-a)) ^ n := by rw [← rpow_natCast, ← rpow_mul hx'.le]; ring_nf
      rw [e1, e2]
      generalize |x| ^ a = A at *
      generalize |x| ^ (-a) = B at *
      rcases le_total A B with h | h
      · calc (A + B) ^ n ≤ (2 * B) ^ n := pow_le_pow_left₀ (by positivity) (by linarith) n
          _ = 2 ^ n * B ^ n := mul_pow _ _ _
          _ ≤ _ := mul_le_mul_of_nonneg_left (le_add_of_nonneg_left (by positivity)) (by positivity)
      · calc (A + B) ^ n ≤ (2 * A) ^ n := pow_le_pow_left₀ (by positivity) (by linarith) n
          _ = 2 ^ n * A ^ n := mul_pow _ _ _
          _ ≤ _ := mul_le_mul_of_nonneg_left (le_add_of_nonneg_right (by positivity)) (by positivity)
    refine (mul_le_mul_of_nonneg_left (h1.trans h2) (by positivity)).trans (le_of_eq ?_)
    rw [rpow_add hx', sub_eq_add_neg, rpow_add hx']
    ring

/-- The test functions. -/
def testF (q : ℝ) (n : ℕ) (x : ℝ) : ℝ := |x| ^ q * log |x| ^ n

theorem measurable_testF (q : ℝ) (n : ℕ) : Measurable (testF q n) := by unfold testF; fun_prop

theorem testF_even (q : ℝ) (n : ℕ) (x : ℝ) : testF q n (-x) = testF q n x := by simp [testF]

theorem testF_sq {q : ℝ} (hq : -(1 / 2) < q) (n : ℕ) : Integrable (fun x => testF q n x ^ 2) stdG := by
  refine (integrable_rpow_log (s := 2 * q) (by linarith) (2 * n)).congr (Filter.Eventually.of_forall fun x => ?_)
  simp only [testF, mul_pow, ← pow_mul]
  rw [mul_comm n 2, mul_comm 2 q, rpow_mul (abs_nonneg x), rpow_two]

/-- `E |Z|^q (log |Z|)^n` for a standard normal `Z`. -/
def normalMoment (q : ℝ) (n : ℕ) : ℝ := ∫ x, testF q n x ∂stdG

theorem normalMoment_pos {q : ℝ} (hq : -1 < q) : 0 < normalMoment q 0 := by
  have hI : Integrable (testF q 0) stdG := integrable_rpow_log hq 0
  have h0 : ∀ᵐ x ∂stdG, x ≠ 0 := by
    have : NullSingletonClass stdG := nullSingletonClass_gaussianReal one_ne_zero
    rw [ae_iff]; simp
  unfold normalMoment
  rw [integral_pos_iff_support_of_nonneg (fun x => by simp only [testF, pow_zero, mul_one]; positivity) hI]
  have : stdG (Function.support (testF q 0)) = stdG Set.univ := by
    apply measure_congr
    filter_upwards [h0] with x hx
    apply propext
    have : testF q 0 x ≠ 0 := by
      simp only [testF, pow_zero, mul_one]
      exact (rpow_pos_of_pos (abs_pos.2 hx) q).ne'
    exact ⟨fun _ => trivial, fun _ => this⟩
  rw [this]
  simp

end

end MFA
