import Verif.Lemmas.Spectral
import Verif.Lemmas.Ortho
import Verif.Lemmas.Decay
import Mathlib.Analysis.SpecialFunctions.Complex.Circle
import Mathlib.Analysis.Complex.Trigonometric
import Mathlib.Algebra.Order.Chebyshev

/-! Self-similarity of the wavelet transform of a power law: the variance at scale `j` behaves like `2^(j(1+a))`. -/

namespace MFA

open Finset MeasureTheory Complex

noncomputable section

/-- Modulus squared of the transfer function of a filter. -/
def filtSq (f : List ℝ) (θ : ℝ) : ℝ := modSq (range f.length) (fun m => f.getD m 0) (fun m => (m : ℝ)) θ

/-- Response to a harmonic signal. -/
theorem downFilter_harmonic (f : List ℝ) (θ : ℝ) : ∃ W : ℂ, normSq W = filtSq f θ ∧ ∀ (Z : ℂ) (k : ℤ),
    downFilter f (fun t => (Z * cexp (I * (θ * t : ℝ))).re) k = (Z * W * cexp (I * (2 * θ * k : ℝ))).re := by
  refine ⟨∑ m ∈ range f.length, (f.getD m 0 : ℂ) * cexp (I * ((θ * (1 + ((f.length - 1) / 2 : ℕ)) : ℝ) - (θ * m : ℝ))), ?_, ?_⟩
  · have e : ∑ m ∈ range f.length, (f.getD m 0 : ℂ) * cexp (I * ((θ * (1 + ((f.length - 1) / 2 : ℕ)) : ℝ) - (θ * m : ℝ))) =
        cexp ((θ * (1 + ((f.length - 1) / 2 : ℕ)) : ℝ) * I) * ((∑ m ∈ range f.length, f.getD m 0 * Real.cos (m * θ) : ℝ) -
          (∑ m ∈ range f.length, f.getD m 0 * Real.sin (m * θ) : ℝ) * I) := by
      push_cast
      rw [Finset.sum_mul, ← Finset.sum_sub_distrib, Finset.mul_sum]
      refine Finset.sum_congr rfl fun m _ => ?_
      rw [show I * ((θ:ℂ) * (1 + ((f.length - 1) / 2 : ℕ)) - θ * m) = θ * (1 + ((f.length - 1) / 2 : ℕ)) * I + (-(m * θ)) * I by ring,
        Complex.exp_add, Complex.exp_mul_I (-(m * θ : ℂ)), Complex.cos_neg, Complex.sin_neg]
      ring
    have hn : ∀ P Q : ℝ, normSq ((P : ℂ) - Q * I) = P ^ 2 + Q ^ 2 := fun P Q => by simp [normSq_apply]; ring
    rw [e, normSq_mul, hn, normSq_eq_norm_sq, Complex.norm_exp_ofReal_mul_I, filtSq, modSq]
    ring
  · intro Z k
    rw [downFilter]
    have e : (Z * ∑ m ∈ range f.length, (f.getD m 0 : ℂ) * cexp (I * ((θ * (1 + ((f.length - 1) / 2 : ℕ)) : ℝ) - (θ * m : ℝ)))) * cexp (I * (2 * θ * k : ℝ)) =
        ∑ m ∈ range f.length, ((f.getD m 0 : ℝ) : ℂ) * (Z * cexp (I * (θ * ((2 * k + 1 + ((f.length - 1) / 2 : ℕ) - m : ℤ) : ℝ) : ℝ))) := by
      rw [Finset.mul_sum, Finset.sum_mul]
      refine Finset.sum_congr rfl fun m _ => ?_
      have : cexp (I * (θ * ((2 * k + 1 + ((f.length - 1) / 2 : ℕ) - m : ℤ) : ℝ) : ℝ)) =
        cexp (I * ((θ * (1 + ((f.length - 1) / 2 : ℕ)) : ℝ) - (θ * m : ℝ))) * cexp (I * (2 * θ * k : ℝ)) := by
        generalize (f.length - 1) / 2 = o
        rw [← Complex.exp_add]; congr 1; push_cast; ring
      rw [this]; ring
    rw [e, Complex.re_sum]
    exact Finset.sum_congr rfl fun m _ => by rw [Complex.re_ofReal_mul]

theorem idealApprox_harmonic (lo : List ℝ) (θ : ℝ) (j : ℕ) : ∃ W : ℂ, normSq W = ∏ i ∈ range j, filtSq lo (2 ^ i * θ) ∧ ∀ (Z : ℂ) (k : ℤ),
    idealApprox lo (fun t => (Z * cexp (I * (θ * t : ℝ))).re) j k = (Z * W * cexp (I * (2 ^ j * θ * k : ℝ))).re := by
  induction j with
  | zero => exact ⟨1, by simp, fun Z k => by simp [idealApprox]⟩
  | succ j ih =>
    obtain ⟨W, h1, h2⟩ := ih
    obtain ⟨W', h3, h4⟩ := downFilter_harmonic lo (2 ^ j * θ)
    refine ⟨W * W', by rw [normSq_mul, h1, h3, Finset.prod_range_succ], fun Z k => ?_⟩
    rw [idealApprox, show idealApprox lo (fun t => (Z * cexp (I * (θ * t : ℝ))).re) j = fun t : ℤ => (Z * W * cexp (I * (2 ^ j * θ * t : ℝ))).re from
      funext fun t => h2 Z t, h4]
    congr 2
    · ring
    · congr 2; push_cast; ring

theorem idealDetail_harmonic (wt : Wavelet) (θ : ℝ) (j : ℕ) : ∃ W : ℂ,
    normSq W = (∏ i ∈ range j, filtSq wt.dec_lo (2 ^ i * θ)) * filtSq wt.dec_hi (2 ^ j * θ) ∧ ∀ Z : ℂ,
    idealDetail wt (fun t => (Z * cexp (I * (θ * t : ℝ))).re) (j + 1) 0 = (Z * W).re := by
  obtain ⟨W, h1, h2⟩ := idealApprox_harmonic wt.dec_lo θ j
  obtain ⟨W', h3, h4⟩ := downFilter_harmonic wt.dec_hi (2 ^ j * θ)
  refine ⟨-(W * W'), by rw [normSq_neg, normSq_mul, h1, h3], fun Z => ?_⟩
  rw [idealDetail, Nat.add_sub_cancel, show idealApprox wt.dec_lo (fun t => (Z * cexp (I * (θ * t : ℝ))).re) j =
    fun t : ℤ => (Z * W * cexp (I * (2 ^ j * θ * t : ℝ))).re from funext fun t => h2 Z t, h4]
  simp [mul_assoc]

/-- The weights of the detail, their transfer function. -/
theorem weight_finsupp (wt : Wavelet) (j : ℕ) : ∃ b : ℤ →₀ ℝ, (∀ t, b t = weight wt (j + 1) 0 t) ∧
    (∀ x : ℤ → ℝ, idealDetail wt x (j + 1) 0 = ∑ s ∈ b.support, b s * x s) ∧
    ∀ θ, modSq b.support b (fun s => (s : ℝ)) θ = (∏ i ∈ range j, filtSq wt.dec_lo (2 ^ i * θ)) * filtSq wt.dec_hi (2 ^ j * θ) := by
  obtain ⟨b, hb⟩ := idealDetail_finsupp wt (j := j + 1) (by omega)
  have hb0 : ∀ x : ℤ → ℝ, idealDetail wt x (j + 1) 0 = ∑ s ∈ b.support, b s * x s := fun x => by
    rw [hb]; simp [Finsupp.sum]
  refine ⟨b, fun t => ?_, hb0, fun θ => ?_⟩
  · rw [weight, hb0]
    simp
  · obtain ⟨W, h1, h2⟩ := idealDetail_harmonic wt θ j
    rw [← h1, normSq_apply, modSq, sq, sq]
    have c1 := h2 1
    have c2 := h2 (-I)
    rw [hb0] at c1 c2
    have e1 : ∑ s ∈ b.support, b s * Real.cos ((s : ℝ) * θ) = W.re := by
      rw [one_mul] at c1
      rw [← c1]
      refine Finset.sum_congr rfl fun s _ => ?_
      rw [one_mul, mul_comm I, Complex.exp_ofReal_mul_I_re, mul_comm θ]
    have e2 : ∑ s ∈ b.support, b s * Real.sin ((s : ℝ) * θ) = W.im := by
      have : (-I * W).re = W.im := by simp
      rw [this] at c2
      rw [← c2]
      refine Finset.sum_congr rfl fun s _ => ?_
      have : (-I * cexp (I * (θ * s : ℝ))).re = (cexp (I * (θ * s : ℝ))).im := by simp
      rw [this, mul_comm I, Complex.exp_ofReal_mul_I_im, mul_comm θ]
    rw [e1, e2]


theorem filtSq_nonneg (f : List ℝ) (θ : ℝ) : 0 ≤ filtSq f θ := modSq_nonneg _ _ _ _

theorem filtSq_continuous (f : List ℝ) : Continuous (filtSq f) := by
  unfold filtSq modSq; fun_prop

theorem one_sub_cos_le_abs (x : ℝ) : 1 - Real.cos x ≤ |x| := by
  rcases le_total |x| 2 with h | h
  · have := Real.one_sub_sq_div_two_le_cos (x := x)
    have h2 : x ^ 2 = |x| ^ 2 := (sq_abs x).symm
    nlinarith [abs_nonneg x]
  · linarith [Real.neg_one_le_cos x]

/-- A filter with sum of square 2 is close to 2 at low frequencies. -/
theorem filtSq_low (f : List ℝ) (hf : (∑ m ∈ range f.length, f.getD m 0) ^ 2 = 2) : ∃ K : ℝ, 1 ≤ K ∧ ∀ θ, 0 ≤ θ → 2 * (1 - K * θ) ≤ filtSq f θ := by
  refine ⟨1 + ∑ m ∈ range f.length, ∑ n ∈ range f.length, |f.getD m 0 * f.getD n 0| * |(m : ℝ) - n|, ?_, fun θ hθ => ?_⟩
  · exact le_add_of_nonneg_right (sum_nonneg fun _ _ => sum_nonneg fun _ _ => by positivity)
  · have h1 : (2:ℝ) - filtSq f θ ≤ (∑ m ∈ range f.length, ∑ n ∈ range f.length, |f.getD m 0 * f.getD n 0| * |(m : ℝ) - n|) * θ := by
      rw [← hf, sq, sum_mul_sum, filtSq, modSq_eq, ← sum_sub_distrib, sum_mul]
      refine sum_le_sum fun m _ => ?_
      rw [← sum_sub_distrib, sum_mul]
      refine sum_le_sum fun n _ => ?_
      rw [← mul_one_sub]
      refine (le_abs_self _).trans ?_
      have h0 : 0 ≤ 1 - Real.cos (((m : ℝ) - n) * θ) := by linarith [Real.cos_le_one (((m : ℝ) - n) * θ)]
      rw [abs_mul, abs_of_nonneg h0, mul_assoc]
      refine mul_le_mul_of_nonneg_left ?_ (abs_nonneg _)
      refine (one_sub_cos_le_abs _).trans (le_of_eq ?_)
      rw [abs_mul, abs_of_nonneg hθ]
    have h2 : 0 ≤ (∑ m ∈ range f.length, ∑ n ∈ range f.length, |f.getD m 0 * f.getD n 0| * |(m : ℝ) - n|) * θ :=
      mul_nonneg (sum_nonneg fun _ _ => sum_nonneg fun _ _ => by positivity) hθ
    nlinarith

theorem prod_low {f : List ℝ} {K : ℝ} (hK : 1 ≤ K) (h : ∀ θ, 0 ≤ θ → 2 * (1 - K * θ) ≤ filtSq f θ) (j : ℕ) {θ : ℝ} (h0 : 0 ≤ θ)
    (h1 : K * (2 ^ j * θ) ≤ 1) : 2 ^ j * (1 - K * (2 ^ j - 1) * θ) ≤ ∏ i ∈ range j, filtSq f (2 ^ i * θ) := by
  induction j with
  | zero => simp
  | succ j ih =>
    have hp : (0:ℝ) < 2 ^ j := by positivity
    have h2 : K * (2 ^ j * θ) ≤ 1 := by
      have : K * (2 ^ j * θ) ≤ K * (2 ^ (j + 1) * θ) := by
        refine mul_le_mul_of_nonneg_left (mul_le_mul_of_nonneg_right ?_ h0) (by linarith)
        rw [pow_succ]; linarith
      linarith
    rw [prod_range_succ]
    have hKθ : 0 ≤ K * θ := mul_nonneg (by linarith) h0
    have h3 := ih h2
    have h4 := h (2 ^ j * θ) (by positivity)
    have h5 : 0 ≤ 1 - K * (2 ^ j * θ) := by linarith
    have h6 : 0 ≤ K * (2 ^ j - 1) * θ := by
      have : (1:ℝ) ≤ 2 ^ j := one_le_pow₀ (by norm_num)
      exact mul_nonneg (mul_nonneg (by linarith) (by linarith)) h0
    have h7 : 0 ≤ 1 - K * (2 ^ j - 1) * θ := by nlinarith
    calc (2:ℝ) ^ (j + 1) * (1 - K * (2 ^ (j + 1) - 1) * θ) ≤ 2 ^ j * (1 - K * (2 ^ j - 1) * θ) * (2 * (1 - K * (2 ^ j * θ))) := by
          have e : 2 ^ j * (1 - K * (2 ^ j - 1) * θ) * (2 * (1 - K * (2 ^ j * θ))) - (2:ℝ) ^ (j + 1) * (1 - K * (2 ^ (j + 1) - 1) * θ) =
            2 * 2 ^ j * ((K * (2 ^ j - 1) * θ) * (K * (2 ^ j * θ))) := by ring
          have : 0 ≤ K * (2 ^ j * θ) := by positivity
          have : 0 ≤ 2 * 2 ^ j * ((K * (2 ^ j - 1) * θ) * (K * (2 ^ j * θ))) := by positivity
          linarith
      _ ≤ _ := mul_le_mul h3 h4 (by linarith) (by have := mul_nonneg hp.le h7; linarith)

/-- A nonzero filter does not vanish near frequency zero. -/
theorem filtSq_ne_zero {f : List ℝ} (hf : ∃ m, f.getD m 0 ≠ 0) {δ : ℝ} (hδ : 0 < δ) : ∃ θ, 0 < θ ∧ θ < δ ∧ 0 < filtSq f θ := by
  by_contra hne
  push Not at hne
  let P : Polynomial ℂ := ∑ m ∈ range f.length, Polynomial.monomial m ((f.getD m 0 : ℝ) : ℂ)
  have hroot : ∀ θ ∈ Set.Ioo 0 (min δ Real.pi), P.IsRoot (cexp (θ * I)) := by
    intro θ hθ
    have h0 : filtSq f θ = 0 := le_antisymm (hne θ hθ.1 (hθ.2.trans_le (min_le_left _ _))) (filtSq_nonneg f θ)
    rw [filtSq, modSq] at h0
    have h1 : ∑ m ∈ range f.length, f.getD m 0 * Real.cos (m * θ) = 0 := by nlinarith [sq_nonneg (∑ m ∈ range f.length, f.getD m 0 * Real.cos (m * θ)), sq_nonneg (∑ m ∈ range f.length, f.getD m 0 * Real.sin (m * θ))]
    have h2 : ∑ m ∈ range f.length, f.getD m 0 * Real.sin (m * θ) = 0 := by nlinarith [sq_nonneg (∑ m ∈ range f.length, f.getD m 0 * Real.cos (m * θ)), sq_nonneg (∑ m ∈ range f.length, f.getD m 0 * Real.sin (m * θ))]
    rw [Polynomial.IsRoot.def, Polynomial.eval_finset_sum]
    have e : ∑ m ∈ range f.length, Polynomial.eval (cexp (θ * I)) (Polynomial.monomial m ((f.getD m 0 : ℝ) : ℂ)) =
        ((∑ m ∈ range f.length, f.getD m 0 * Real.cos (m * θ) : ℝ) : ℂ) + ((∑ m ∈ range f.length, f.getD m 0 * Real.sin (m * θ) : ℝ) : ℂ) * I := by
      push_cast
      rw [Finset.sum_mul, ← Finset.sum_add_distrib]
      refine Finset.sum_congr rfl fun m _ => ?_
      rw [Polynomial.eval_monomial, ← Complex.exp_nat_mul, show (m : ℂ) * (θ * I) = (m * θ) * I by ring, Complex.exp_mul_I]
      ring
    rw [e, h1, h2]; simp
  have hinf : Set.Infinite {z | P.IsRoot z} := by
    have hI : (Set.Ioo 0 (min δ Real.pi)).Infinite := Set.Ioo_infinite (lt_min hδ Real.pi_pos)
    have himg : ((fun θ : ℝ => cexp (θ * I)) '' Set.Ioo 0 (min δ Real.pi)).Infinite := by
      refine hI.image fun x hx y hy hxy => ?_
      have h1 : Real.cos x = Real.cos y := by
        have := congrArg Complex.re hxy
        simpa [Complex.exp_ofReal_mul_I_re] using this
      exact Real.injOn_cos ⟨hx.1.le, (hx.2.trans_le (min_le_right _ _)).le⟩ ⟨hy.1.le, (hy.2.trans_le (min_le_right _ _)).le⟩ h1
    refine himg.mono ?_
    rintro z ⟨θ, hθ, rfl⟩
    exact hroot θ hθ
  have hP : P = 0 := Polynomial.eq_zero_of_infinite_isRoot P hinf
  obtain ⟨m, hm⟩ := hf
  have hlt : m < f.length := by
    by_contra h
    apply hm
    rw [List.getD_eq_getElem?_getD, List.getElem?_eq_none (by omega)]; rfl
  have hc : P.coeff m = ((f.getD m 0 : ℝ) : ℂ) := by
    simp only [P, Polynomial.finset_sum_coeff, Polynomial.coeff_monomial]
    rw [Finset.sum_eq_single m]
    · simp
    · intro n _ hn; simp [hn]
    · intro h; exact absurd (mem_range.2 hlt) h
  rw [hP, Polynomial.coeff_zero] at hc
  exact hm (by exact_mod_cast hc.symm)


/-- The double detail of `G` of the distance, at scale `j + 1`. -/
def dblDetail (wt : Wavelet) (G : ℤ → ℝ) (j : ℕ) : ℝ :=
  idealDetail wt (fun s => idealDetail wt (fun t => G (s - t)) (j + 1) 0) (j + 1) 0

theorem dblDetail_eq (wt : Wavelet) (G : ℤ → ℝ) (j : ℕ) {b : ℤ →₀ ℝ}
    (hb : ∀ x : ℤ → ℝ, idealDetail wt x (j + 1) 0 = ∑ s ∈ b.support, b s * x s) :
    dblDetail wt G j = ∑ s ∈ b.support, ∑ t ∈ b.support, b s * b t * G (s - t) := by
  rw [dblDetail, hb]
  refine sum_congr rfl fun s _ => ?_
  rw [hb, mul_sum]
  exact sum_congr rfl fun t _ => by ring

theorem detail_sum_zero {wt : Wavelet} {M : ℕ} (hM : VanishingMoments wt.dec_hi M) (hM1 : 1 ≤ M) {j : ℕ} {b : ℤ →₀ ℝ}
    (hb : ∀ x : ℤ → ℝ, idealDetail wt x (j + 1) 0 = ∑ s ∈ b.support, b s * x s) : ∑ s ∈ b.support, b s = 0 := by
  have h1 := idealDetail_vanish wt hM (Polynomial.X ^ 0) (by rw [Polynomial.natDegree_X_pow]; omega) (j + 1) 0
  rw [hb] at h1
  simpa using h1

/-- Lower bound of the variance at every scale. -/
theorem dblDetail_lower {wt : Wavelet} {M : ℕ} (hM : VanishingMoments wt.dec_hi M) (hM1 : 1 ≤ M)
    (hlo : (∑ m ∈ range wt.dec_lo.length, wt.dec_lo.getD m 0) ^ 2 = 2) (hhi : ∃ m, wt.dec_hi.getD m 0 ≠ 0) {a : ℝ} (h0 : 0 < a) (h2 : a < 2) :
    ∃ c, 0 < c ∧ ∀ j, c * ((2:ℝ) ^ (1 + a)) ^ j ≤ -dblDetail wt (fun n => |(n : ℝ)| ^ a) j := by
  obtain ⟨K, hK, hlow⟩ := filtSq_low wt.dec_lo hlo
  have hδ : 0 < 1 / (2 * K) := by positivity
  obtain ⟨θ₀, p0, p1, p2⟩ := filtSq_ne_zero hhi hδ
  let F : ℝ → ℝ := fun φ => if φ < 1 / (2 * K) then filtSq wt.dec_hi φ * (1 / 2) * φ ^ (-1 - a) else 0
  have hF0 : ∀ φ, 0 < φ → 0 ≤ F φ := by
    intro φ hφ
    simp only [F]
    split
    · exact mul_nonneg (mul_nonneg (filtSq_nonneg _ _) (by norm_num)) (Real.rpow_nonneg hφ.le _)
    · exact le_rfl
  have spec : ∀ j : ℕ, IntegrableOn (fun θ : ℝ => (∏ i ∈ range j, filtSq wt.dec_lo (2 ^ i * θ)) * filtSq wt.dec_hi (2 ^ j * θ) * θ ^ (-1 - a)) (Set.Ioi 0) ∧
      -dblDetail wt (fun n => |(n : ℝ)| ^ a) j = (specConst a)⁻¹ * ∫ θ in Set.Ioi (0:ℝ),
        (∏ i ∈ range j, filtSq wt.dec_lo (2 ^ i * θ)) * filtSq wt.dec_hi (2 ^ j * θ) * θ ^ (-1 - a) := by
    intro j
    obtain ⟨b, -, hb, hm⟩ := weight_finsupp wt j
    have := spectral_form h0 h2 b.support b (fun s => (s : ℝ)) (detail_sum_zero hM hM1 hb)
    simp only [hm] at this
    refine ⟨this.1, ?_⟩
    rw [dblDetail_eq wt _ j hb, ← this.2]
    simp only [Int.cast_sub]
  have hFm : Measurable F := by
    refine Measurable.ite measurableSet_Iio ?_ measurable_const
    exact ((filtSq_continuous _).measurable.mul_const _).mul (by fun_prop)
  have hFi : IntegrableOn F (Set.Ioi 0) := by
    refine (spec 0).1.mono' hFm.aestronglyMeasurable.restrict ?_
    refine (ae_restrict_iff' measurableSet_Ioi).2 (Filter.Eventually.of_forall fun φ hφ => ?_)
    have hφ : 0 < φ := hφ
    rw [Real.norm_of_nonneg (hF0 φ hφ)]
    simp only [F, range_zero, prod_empty, one_mul, pow_zero]
    have h3 := mul_nonneg (filtSq_nonneg wt.dec_hi φ) (Real.rpow_nonneg hφ.le (-1 - a))
    split
    · nlinarith
    · exact h3
  have hFp : 0 < ∫ φ in Set.Ioi (0:ℝ), F φ := by
    rw [setIntegral_pos_iff_support_of_nonneg_ae]
    · have hopen : IsOpen ({φ | 0 < filtSq wt.dec_hi φ} ∩ Set.Ioo 0 (1 / (2 * K))) :=
        (isOpen_lt continuous_const (filtSq_continuous _)).inter isOpen_Ioo
      have hpos := hopen.measure_pos volume ⟨θ₀, p2, p0, p1⟩
      refine hpos.trans_le (measure_mono ?_)
      rintro φ ⟨hφ, hφ1, hφ2⟩
      refine ⟨?_, hφ1⟩
      rw [Function.mem_support]
      simp only [F]
      rw [if_pos hφ2]
      exact (mul_pos (mul_pos hφ (by norm_num)) (Real.rpow_pos_of_pos hφ1 _)).ne'
    · exact (ae_restrict_iff' measurableSet_Ioi).2 (Filter.Eventually.of_forall fun φ hφ => hF0 φ hφ)
    · exact hFi
  refine ⟨(specConst a)⁻¹ * ∫ φ in Set.Ioi (0:ℝ), F φ, mul_pos (inv_pos.2 (specConst_pos h0 h2)) hFp, fun j => ?_⟩
  rw [(spec j).2, mul_assoc]
  refine mul_le_mul_of_nonneg_left ?_ (inv_pos.2 (specConst_pos h0 h2)).le
  have hp : (0:ℝ) < 2 ^ j := by positivity
  have hsc : ∫ θ in Set.Ioi (0:ℝ), F (2 ^ j * θ) = (2 ^ j)⁻¹ * ∫ φ in Set.Ioi (0:ℝ), F φ := by
    rw [integral_comp_mul_left_Ioi F 0 hp, mul_zero, smul_eq_mul]
  have hint : IntegrableOn (fun θ => F (2 ^ j * θ)) (Set.Ioi 0) :=
    (integrableOn_Ioi_comp_mul_left_iff F 0 hp).2 (by rw [mul_zero]; exact hFi)
  have e : (∫ φ in Set.Ioi (0:ℝ), F φ) * ((2:ℝ) ^ (1 + a)) ^ j =
      ∫ θ in Set.Ioi (0:ℝ), (2 ^ j * ((2:ℝ) ^ (1 + a)) ^ j) * F (2 ^ j * θ) := by
    rw [integral_const_mul, hsc]
    field_simp
  rw [e]
  refine setIntegral_mono_on (hint.const_mul _) (spec j).1 measurableSet_Ioi fun θ hθ => ?_
  have hθ : 0 < θ := hθ
  simp only [F]
  have hprod : 0 ≤ ∏ i ∈ range j, filtSq wt.dec_lo (2 ^ i * θ) := prod_nonneg fun i _ => filtSq_nonneg _ _
  split
  · rename_i hlt
    have hK1 : K * (2 ^ j * θ) ≤ 1 / 2 := by
      rw [lt_div_iff₀ (by positivity)] at hlt
      linarith
    have h3 := prod_low hK hlow j hθ.le (by linarith)
    have h4 : (2:ℝ) ^ j * (1 / 2) ≤ ∏ i ∈ range j, filtSq wt.dec_lo (2 ^ i * θ) := by
      refine le_trans (mul_le_mul_of_nonneg_left ?_ hp.le) h3
      have : 0 ≤ K * θ := by positivity
      nlinarith
    have e2 : ((2:ℝ) ^ j * θ) ^ (-1 - a) = (((2:ℝ) ^ (1 + a)) ^ j)⁻¹ * θ ^ (-1 - a) := by
      rw [Real.mul_rpow hp.le hθ.le]
      congr 1
      rw [← Real.rpow_natCast, ← Real.rpow_natCast, ← Real.rpow_mul (by norm_num), ← Real.rpow_mul (by norm_num), ← Real.rpow_neg (by norm_num)]
      congr 1; ring
    rw [e2]
    have hq : (0:ℝ) < ((2:ℝ) ^ (1 + a)) ^ j := by positivity
    have e3 : (2 ^ j * ((2:ℝ) ^ (1 + a)) ^ j) * (filtSq wt.dec_hi (2 ^ j * θ) * (1 / 2) * ((((2:ℝ) ^ (1 + a)) ^ j)⁻¹ * θ ^ (-1 - a))) =
        (2 ^ j * (1 / 2)) * filtSq wt.dec_hi (2 ^ j * θ) * θ ^ (-1 - a) := by field_simp
    rw [e3]
    exact mul_le_mul_of_nonneg_right (mul_le_mul_of_nonneg_right h4 (filtSq_nonneg _ _)) (Real.rpow_nonneg hθ.le _)
  · rw [mul_zero]
    exact mul_nonneg (mul_nonneg hprod (filtSq_nonneg _ _)) (Real.rpow_nonneg hθ.le _)


/-- Support of the impulse response of the approximation. -/
theorem approxWeight_support (lo : List ℝ) (j : ℕ) : ∀ (k t : ℤ), approxWeight lo j k t ≠ 0 →
    2 ^ j * k + (2 ^ j - 1) * (1 + ((lo.length - 1) / 2 : ℕ) - (lo.length - 1 : ℕ)) ≤ t ∧
    t ≤ 2 ^ j * k + (2 ^ j - 1) * (1 + ((lo.length - 1) / 2 : ℕ)) := by
  induction j with
  | zero =>
    intro k t h
    rw [approxWeight_zero] at h
    simp only [ne_eq, ite_eq_right_iff, one_ne_zero, imp_false, not_not] at h
    subst h
    simp
  | succ j ih =>
    intro k t h
    rw [approxWeight_succ] at h
    obtain ⟨m, hm, hne⟩ := exists_ne_zero_of_sum_ne_zero h
    have hm' := mem_range.1 hm
    obtain ⟨h1, h2⟩ := ih _ t (right_ne_zero_of_mul hne)
    have hp : (1:ℤ) ≤ 2 ^ j := one_le_pow₀ (by norm_num)
    have hmL : (m : ℤ) ≤ (lo.length - 1 : ℕ) := by exact_mod_cast (by omega : m ≤ lo.length - 1)
    have hm0 : (0 : ℤ) ≤ m := by positivity
    generalize ((lo.length - 1 : ℕ) : ℤ) = L at *
    generalize (((lo.length - 1) / 2 : ℕ) : ℤ) = o at *
    rw [pow_succ]
    constructor <;> nlinarith

/-- The number of samples a detail depends on. -/
theorem weight_card {wt : Wavelet} (hwt : wt.Valid) {j : ℕ} {b : ℤ →₀ ℝ} (hb : ∀ t, b t = weight wt (j + 1) 0 t) :
    (b.support.card : ℝ) ≤ 2 * wt.dec_hi.length * 2 ^ j := by
  have hL := hwt.pos
  have hp : (1:ℤ) ≤ 2 ^ j := one_le_pow₀ (by norm_num)
  let o : ℤ := ((wt.dec_hi.length - 1) / 2 : ℕ)
  let L : ℤ := (wt.dec_hi.length - 1 : ℕ)
  have hsub : b.support ⊆ Icc (2 ^ j * (1 + o - L) + (2 ^ j - 1) * (1 + o - L)) (2 ^ j * (1 + o) + (2 ^ j - 1) * (1 + o)) := by
    intro t ht
    rw [Finsupp.mem_support_iff, hb, weight_succ] at ht
    obtain ⟨m, hm, hne⟩ := exists_ne_zero_of_sum_ne_zero ht
    obtain ⟨h1, h2⟩ := approxWeight_support _ j _ t (right_ne_zero_of_mul hne)
    have hm' := mem_range.1 hm
    have hmL : (m : ℤ) ≤ L := by simp only [L]; omega
    have hm0 : (0 : ℤ) ≤ m := by positivity
    rw [hwt.same] at h1 h2
    rw [mem_Icc]
    change 2 ^ j * (2 * 0 + 1 + o - m) + (2 ^ j - 1) * (1 + o - L) ≤ t at h1
    change t ≤ 2 ^ j * (2 * 0 + 1 + o - m) + (2 ^ j - 1) * (1 + o) at h2
    constructor <;> nlinarith
  have hcard := card_le_card hsub
  rw [Int.card_Icc] at hcard
  have hLeq : (wt.dec_hi.length : ℤ) = L + 1 := by simp only [L]; omega
  have e : (2 ^ j * (1 + o) + (2 ^ j - 1) * (1 + o) + 1 - (2 ^ j * (1 + o - L) + (2 ^ j - 1) * (1 + o - L))) = (2 * 2 ^ j - 1) * L + 1 := by ring
  rw [e] at hcard
  have hL0 : 0 ≤ L := by positivity
  have hle : (b.support.card : ℤ) ≤ 2 * wt.dec_hi.length * 2 ^ j := by
    have h1 : (b.support.card : ℤ) ≤ ((2 * 2 ^ j - 1) * L + 1).toNat := by exact_mod_cast hcard
    rw [Int.toNat_of_nonneg (by nlinarith)] at h1
    rw [hLeq]; nlinarith
  exact_mod_cast hle

/-- The double detail of a bounded function. -/
theorem dblDetail_bounded {wt : Wavelet} (hwt : wt.Valid) (ho : OrthonormalBank wt) {E : ℤ → ℝ} {B : ℝ} (hE : ∀ n, |E n| ≤ B) (j : ℕ) :
    |dblDetail wt E j| ≤ B * (2 * wt.dec_hi.length * 2 ^ j) := by
  obtain ⟨b, hb, hbx, -⟩ := weight_finsupp wt j
  have hB : 0 ≤ B := (abs_nonneg _).trans (hE 0)
  rw [dblDetail_eq wt E j hbx]
  have hnorm : ∑ s ∈ b.support, b s ^ 2 = 1 := by
    have := detail_weight hwt ho (j := j + 1) (j' := j + 1) (by omega) (by omega) 0 0
    rw [hbx, if_pos ⟨rfl, rfl⟩] at this
    rw [← this]
    exact sum_congr rfl fun s _ => by rw [← hb, sq]
  have h1 : |∑ s ∈ b.support, ∑ t ∈ b.support, b s * b t * E (s - t)| ≤ B * (∑ s ∈ b.support, |b s|) ^ 2 := by
    rw [sq, sum_mul_sum, mul_sum]
    refine (abs_sum_le_sum_abs _ _).trans (sum_le_sum fun s _ => ?_)
    rw [mul_sum]
    refine (abs_sum_le_sum_abs _ _).trans (sum_le_sum fun t _ => ?_)
    rw [abs_mul, abs_mul, mul_comm B]
    exact mul_le_mul_of_nonneg_left (hE _) (by positivity)
  refine h1.trans (mul_le_mul_of_nonneg_left ?_ hB)
  have h2 : (∑ s ∈ b.support, |b s|) ^ 2 ≤ b.support.card * ∑ s ∈ b.support, |b s| ^ 2 := sq_sum_le_card_mul_sum_sq
  refine h2.trans ?_
  simp only [sq_abs]
  rw [hnorm, mul_one]
  exact weight_card hwt hb

/-- One step of the low-pass filter on a function of the distance. -/
def lowStep (lo : List ℝ) (G : ℤ → ℝ) (n : ℤ) : ℝ :=
  ∑ m ∈ range lo.length, ∑ m' ∈ range lo.length, lo.getD m 0 * lo.getD m' 0 * G (2 * n - m + m')

theorem idealApprox_peel (lo : List ℝ) (x : ℤ → ℝ) (j : ℕ) : idealApprox lo x (j + 1) = idealApprox lo (downFilter lo x) j := by
  induction j with
  | zero => rfl
  | succ j ih => rw [idealApprox, ih]; rfl

theorem idealDetail_peel (wt : Wavelet) (x : ℤ → ℝ) (j : ℕ) (k : ℤ) :
    idealDetail wt x (j + 1 + 1) k = idealDetail wt (downFilter wt.dec_lo x) (j + 1) k := by
  rw [idealDetail, idealDetail, Nat.add_sub_cancel, Nat.add_sub_cancel, idealApprox_peel]

theorem dblDetail_succ (wt : Wavelet) (G : ℤ → ℝ) (j : ℕ) : dblDetail wt G (j + 1) = dblDetail wt (lowStep wt.dec_lo G) j := by
  obtain ⟨b, -, hbx, -⟩ := weight_finsupp wt j
  rw [dblDetail_eq wt (lowStep wt.dec_lo G) j hbx, dblDetail, idealDetail_peel, hbx]
  refine sum_congr rfl fun s _ => ?_
  rw [downFilter, mul_sum]
  simp only [idealDetail_peel, hbx, downFilter, mul_sum]
  rw [sum_comm]
  refine sum_congr rfl fun t _ => ?_
  rw [lowStep, mul_sum]
  refine sum_congr rfl fun m _ => ?_
  rw [mul_sum]
  refine sum_congr rfl fun m' _ => ?_
  rw [show 2 * s + 1 + (((wt.dec_lo.length - 1) / 2 : ℕ) : ℤ) - m - (2 * t + 1 + (((wt.dec_lo.length - 1) / 2 : ℕ) : ℤ) - m') = 2 * (s - t) - m + m' by ring]
  ring

/-- Second differences of a power are bounded. -/
theorem power_second_difference {a : ℝ} (h0 : 0 < a) (h2 : a < 2) (x d : ℝ) : |(|x + d|) ^ a + |x - d| ^ a - 2 * |x| ^ a| ≤ 2 * |d| ^ a := by
  have hC := specConst_pos h0 h2
  obtain ⟨i1, e1⟩ := cos_kernel_scaled h0 h2 (x + d)
  obtain ⟨i2, e2⟩ := cos_kernel_scaled h0 h2 (x - d)
  obtain ⟨i3, e3⟩ := cos_kernel_scaled h0 h2 x
  obtain ⟨i4, e4⟩ := cos_kernel_scaled h0 h2 d
  have i12 : IntegrableOn (fun θ => (1 - Real.cos ((x + d) * θ)) * θ ^ (-1 - a) + (1 - Real.cos ((x - d) * θ)) * θ ^ (-1 - a)) (Set.Ioi 0) := i1.add i2
  have i33 := i3.const_mul 2
  have e : ((|x + d|) ^ a + |x - d| ^ a - 2 * |x| ^ a) * specConst a =
      ∫ θ in Set.Ioi (0:ℝ), 2 * Real.cos (x * θ) * ((1 - Real.cos (d * θ)) * θ ^ (-1 - a)) := by
    rw [sub_mul, add_mul, mul_assoc 2, ← e1, ← e2, ← e3, ← integral_add i1 i2, ← integral_const_mul, ← integral_sub i12 i33]
    congr 1
    funext θ
    rw [add_mul x d θ, sub_mul x d θ, Real.cos_add, Real.cos_sub]
    ring
  have hb : |((|x + d|) ^ a + |x - d| ^ a - 2 * |x| ^ a) * specConst a| ≤ 2 * (|d| ^ a * specConst a) := by
    rw [e, ← e4, ← integral_const_mul, ← Real.norm_eq_abs]
    refine norm_integral_le_of_norm_le (i4.const_mul 2) ?_
    refine (ae_restrict_iff' measurableSet_Ioi).2 (Filter.Eventually.of_forall fun θ hθ => ?_)
    have hn : 0 ≤ (1 - Real.cos (d * θ)) * θ ^ (-1 - a) :=
      mul_nonneg (by linarith [Real.cos_le_one (d * θ)]) (Real.rpow_nonneg (le_of_lt hθ) _)
    rw [norm_mul, norm_mul, Real.norm_of_nonneg hn, Real.norm_of_nonneg (by norm_num : (0:ℝ) ≤ 2), Real.norm_eq_abs]
    refine mul_le_mul_of_nonneg_right ?_ hn
    linarith [Real.abs_cos_le_one (x * θ)]
  rw [abs_mul, abs_of_pos hC, ← mul_assoc] at hb
  exact le_of_mul_le_mul_right hb hC

theorem lowStep_power {lo : List ℝ} (hlo : (∑ m ∈ range lo.length, lo.getD m 0) ^ 2 = 2) {a : ℝ} (h0 : 0 < a) (h2 : a < 2) :
    ∃ B, ∀ n : ℤ, |lowStep lo (fun n => |(n : ℝ)| ^ a) n - (2:ℝ) ^ (1 + a) * |(n : ℝ)| ^ a| ≤ B := by
  refine ⟨∑ m ∈ range lo.length, ∑ m' ∈ range lo.length, |lo.getD m 0 * lo.getD m' 0| * |(m' : ℝ) - m| ^ a, fun n => ?_⟩
  have e1 : (2:ℝ) ^ (1 + a) * |(n : ℝ)| ^ a = ∑ m ∈ range lo.length, ∑ m' ∈ range lo.length, lo.getD m 0 * lo.getD m' 0 * |2 * (n : ℝ)| ^ a := by
    simp_rw [← sum_mul, ← mul_sum, ← sum_mul]
    rw [← sq, hlo, abs_mul, abs_two, Real.mul_rpow (by norm_num) (abs_nonneg _), Real.rpow_add (by norm_num), Real.rpow_one]
    ring
  have e2 : lowStep lo (fun n => |(n : ℝ)| ^ a) n = ∑ m ∈ range lo.length, ∑ m' ∈ range lo.length, lo.getD m 0 * lo.getD m' 0 * |2 * (n : ℝ) + (m' - m)| ^ a := by
    rw [lowStep]
    refine sum_congr rfl fun m _ => sum_congr rfl fun m' _ => ?_
    congr 3; push_cast; ring
  have e3 : lowStep lo (fun n => |(n : ℝ)| ^ a) n = ∑ m ∈ range lo.length, ∑ m' ∈ range lo.length, lo.getD m 0 * lo.getD m' 0 * |2 * (n : ℝ) - (m' - m)| ^ a := by
    rw [e2, sum_comm]
    refine sum_congr rfl fun m _ => sum_congr rfl fun m' _ => ?_
    rw [mul_comm (lo.getD m' 0)]
    congr 3; ring
  have e : 2 * (lowStep lo (fun n => |(n : ℝ)| ^ a) n - (2:ℝ) ^ (1 + a) * |(n : ℝ)| ^ a) =
      ∑ m ∈ range lo.length, ∑ m' ∈ range lo.length, lo.getD m 0 * lo.getD m' 0 *
        (|2 * (n : ℝ) + (m' - m)| ^ a + |2 * (n : ℝ) - (m' - m)| ^ a - 2 * |2 * (n : ℝ)| ^ a) := by
    rw [mul_sub, two_mul (lowStep _ _ _)]
    nth_rewrite 1 [e2]
    rw [e3, e1, mul_sum, ← sum_add_distrib, ← sum_sub_distrib]
    refine sum_congr rfl fun m _ => ?_
    rw [mul_sum, ← sum_add_distrib, ← sum_sub_distrib]
    exact sum_congr rfl fun m' _ => by ring
  have hb : |2 * (lowStep lo (fun n => |(n : ℝ)| ^ a) n - (2:ℝ) ^ (1 + a) * |(n : ℝ)| ^ a)| ≤
      2 * ∑ m ∈ range lo.length, ∑ m' ∈ range lo.length, |lo.getD m 0 * lo.getD m' 0| * |(m' : ℝ) - m| ^ a := by
    rw [e, mul_sum]
    refine (abs_sum_le_sum_abs _ _).trans (sum_le_sum fun m _ => ?_)
    rw [mul_sum]
    refine (abs_sum_le_sum_abs _ _).trans (sum_le_sum fun m' _ => ?_)
    rw [abs_mul]
    refine (mul_le_mul_of_nonneg_left (power_second_difference h0 h2 _ _) (abs_nonneg _)).trans (le_of_eq (by ring))
  rw [abs_mul, abs_two] at hb
  linarith

/-- **Self-similarity**: the variance at scale `j + 1` is `V 2^(j(1+a)) (1 + O(2^(-ja)))`, with `V > 0`. -/
theorem dblDetail_asymptotic {wt : Wavelet} (hwt : wt.Valid) (ho : OrthonormalBank wt) {M : ℕ} (hM : VanishingMoments wt.dec_hi M) (hM1 : 1 ≤ M)
    (hlo : (∑ m ∈ range wt.dec_lo.length, wt.dec_lo.getD m 0) ^ 2 = 2) (hhi : ∃ m, wt.dec_hi.getD m 0 ≠ 0) {a : ℝ} (h0 : 0 < a) (h2 : a < 2) :
    ∃ V C, 0 < V ∧ 0 ≤ C ∧ ∀ j : ℕ, |-dblDetail wt (fun n => |(n : ℝ)| ^ a) j - V * ((2:ℝ) ^ (1 + a)) ^ j| ≤ C * 2 ^ j := by
  obtain ⟨c, hc, hlow⟩ := dblDetail_lower hM hM1 hlo hhi h0 h2
  obtain ⟨B, hB⟩ := lowStep_power hlo h0 h2
  let lam : ℝ := (2:ℝ) ^ (1 + a)
  have hlam : 2 < lam := by
    simp only [lam]
    rw [Real.rpow_add (by norm_num), Real.rpow_one]
    have : 1 < (2:ℝ) ^ a := Real.one_lt_rpow (by norm_num) h0
    linarith
  have hlam0 : 0 < lam := by linarith
  have hB0 : 0 ≤ B := (abs_nonneg _).trans (hB 0)
  let U : ℕ → ℝ := fun j => -dblDetail wt (fun n => |(n : ℝ)| ^ a) j
  have hrec : ∀ j, |U (j + 1) - lam * U j| ≤ B * (2 * wt.dec_hi.length * 2 ^ j) := by
    intro j
    have := dblDetail_bounded hwt ho hB j
    obtain ⟨b, -, hbx, -⟩ := weight_finsupp wt j
    have e : U (j + 1) - lam * U j = -dblDetail wt (fun n => lowStep wt.dec_lo (fun n => |(n : ℝ)| ^ a) n - (2:ℝ) ^ (1 + a) * |(n : ℝ)| ^ a) j := by
      simp only [U, dblDetail_succ]
      rw [dblDetail_eq wt _ j hbx, dblDetail_eq wt _ j hbx, dblDetail_eq wt _ j hbx, mul_neg, sub_neg_eq_add, neg_add_eq_sub, mul_sum, ← sum_sub_distrib, ← sum_neg_distrib]
      refine sum_congr rfl fun s _ => ?_
      rw [mul_sum, ← sum_sub_distrib, ← sum_neg_distrib]
      exact sum_congr rfl fun t _ => by simp only [lam]; ring
    rw [e, abs_neg]
    exact this
  let D : ℝ := B * (2 * wt.dec_hi.length)
  have hD : 0 ≤ D := by positivity
  let u : ℕ → ℝ := fun j => U j / lam ^ j
  have hu : ∀ j, dist (u j) (u (j + 1)) ≤ D / lam * (2 / lam) ^ j := by
    intro j
    have e : u j - u (j + 1) = -((U (j + 1) - lam * U j) / lam ^ (j + 1)) := by
      simp only [u]; field_simp; ring
    rw [Real.dist_eq, e, abs_neg, abs_div, abs_of_pos (by positivity : 0 < lam ^ (j + 1)), div_le_iff₀ (by positivity)]
    refine (hrec j).trans (le_of_eq ?_)
    simp only [D]
    rw [div_pow, pow_succ]; field_simp
  have hr : 2 / lam < 1 := by rw [div_lt_one hlam0]; exact hlam
  have hcau := cauchySeq_of_le_geometric _ _ hr hu
  obtain ⟨V, hV⟩ := cauchySeq_tendsto_of_complete hcau
  have hd := dist_le_of_le_geometric_of_tendsto _ _ hr hu hV
  refine ⟨V, D / lam / (1 - 2 / lam), ?_, ?_, fun j => ?_⟩
  · have : c ≤ V := by
      refine ge_of_tendsto' hV fun j => ?_
      simp only [u]
      rw [le_div_iff₀ (by positivity)]
      exact hlow j
    linarith
  · exact div_nonneg (by positivity) (by linarith)
  · have h3 := hd j
    rw [Real.dist_eq] at h3
    have e : -dblDetail wt (fun n => |(n : ℝ)| ^ a) j - V * ((2:ℝ) ^ (1 + a)) ^ j = (u j - V) * lam ^ j := by
      simp only [u, U]
      rw [sub_mul, div_mul_cancel₀ _ (by positivity)]
    rw [e, abs_mul, abs_of_pos (by positivity : 0 < lam ^ j)]
    refine (mul_le_mul_of_nonneg_right h3 (by positivity)).trans (le_of_eq ?_)
    have : (2 / lam) ^ j * lam ^ j = 2 ^ j := by rw [← mul_pow, div_mul_cancel₀ _ hlam0.ne']
    calc _ = D / lam / (1 - 2 / lam) * ((2 / lam) ^ j * lam ^ j) := by ring
      _ = _ := by rw [this]

/-- The low-pass filter of an orthonormal bank with a vanishing moment has a sum of square 2. -/
theorem orthonormal_lo {wt : Wavelet} (ho : OrthonormalBank wt) {M : ℕ} (hM : VanishingMoments wt.dec_hi M) (hM1 : 1 ≤ M) :
    (∑ m ∈ range wt.dec_lo.length, wt.dec_lo.getD m 0) ^ 2 = 2 ∧ ∑ m ∈ range wt.dec_lo.length, (-1) ^ m * wt.dec_lo.getD m 0 = 0 := by
  have key : ∀ f f' : List ℝ, ∑ n ∈ Icc (-(f'.length : ℤ)) f.length, evenCorrelation f f' n =
      (∑ m ∈ range f.length, if Even m then f.getD m 0 else 0) * (∑ m ∈ range f'.length, if Even m then f'.getD m 0 else 0) +
      (∑ m ∈ range f.length, if Even m then 0 else f.getD m 0) * (∑ m ∈ range f'.length, if Even m then 0 else f'.getD m 0) := by
    intro f f'
    simp only [evenCorrelation]
    rw [sum_mul_sum, sum_mul_sum, ← sum_add_distrib, sum_comm]
    refine sum_congr rfl fun m hm => ?_
    rw [sum_comm, ← sum_add_distrib]
    refine sum_congr rfl fun m' hm' => ?_
    have h1 := mem_range.1 hm
    have h2 := mem_range.1 hm'
    by_cases hp : Even m ↔ Even m'
    · have : ∃ n : ℤ, (m : ℤ) - m' = 2 * n := by
        have : Even ((m : ℤ) - m') := by rw [Int.even_sub]; exact_mod_cast hp
        obtain ⟨n, hn⟩ := this
        exact ⟨n, by omega⟩
      obtain ⟨n, hn⟩ := this
      rw [sum_eq_single n]
      · rw [if_pos hn]
        by_cases he : Even m
        · simp [he, hp.1 he]
        · simp [he, mt hp.2 he]
      · intro n' _ hne; rw [if_neg (by omega)]
      · intro hmem; rw [mem_Icc] at hmem; omega
    · rw [sum_eq_zero]
      · by_cases he : Even m
        · have : ¬ Even m' := fun h => hp ⟨fun _ => h, fun _ => he⟩
          simp [he, this]
        · have : Even m' := by by_contra h; exact hp ⟨fun h' => absurd h' he, fun h' => absurd h' h⟩
          simp [he, this]
      · intro n _
        rw [if_neg]
        intro h
        apply hp
        have : Even ((m : ℤ) - m') := ⟨n, by omega⟩
        rw [Int.even_sub] at this
        exact_mod_cast this
  have split : ∀ f : List ℝ, ∑ m ∈ range f.length, f.getD m 0 = (∑ m ∈ range f.length, if Even m then f.getD m 0 else 0) +
      ∑ m ∈ range f.length, if Even m then 0 else f.getD m 0 := by
    intro f
    rw [← sum_add_distrib]
    refine sum_congr rfl fun m _ => ?_
    by_cases h : Even m <;> simp [h]
  have alt : ∀ f : List ℝ, ∑ m ∈ range f.length, (-1) ^ m * f.getD m 0 = (∑ m ∈ range f.length, if Even m then f.getD m 0 else 0) -
      ∑ m ∈ range f.length, if Even m then 0 else f.getD m 0 := by
    intro f
    rw [← sum_sub_distrib]
    refine sum_congr rfl fun m _ => ?_
    by_cases h : Even m
    · simp [h, h.neg_one_pow]
    · simp [h, (Nat.not_even_iff_odd.1 h).neg_one_pow]
  have one : ∀ f : List ℝ, (∀ n : ℤ, evenCorrelation f f n = if n = 0 then 1 else 0) → ∑ n ∈ Icc (-(f.length : ℤ)) f.length, evenCorrelation f f n = 1 := by
    intro f hf
    rw [sum_eq_single 0]
    · rw [hf, if_pos rfl]
    · intro n _ hn; rw [hf, if_neg hn]
    · intro h; rw [mem_Icc] at h; omega
  have a1 := (key wt.dec_lo wt.dec_lo).symm.trans (one _ ho.lo)
  have a2 := (key wt.dec_hi wt.dec_hi).symm.trans (one _ ho.hi)
  have a3 := (key wt.dec_lo wt.dec_hi).symm.trans (sum_eq_zero fun n _ => ho.cross n)
  have a4 := hM 0 (by omega)
  simp only [pow_zero, mul_one] at a4
  rw [split] at a4 ⊢
  rw [alt]
  generalize (∑ m ∈ range wt.dec_lo.length, if Even m then wt.dec_lo.getD m 0 else 0) = he at *
  generalize (∑ m ∈ range wt.dec_lo.length, if Even m then 0 else wt.dec_lo.getD m 0) = hod at *
  generalize (∑ m ∈ range wt.dec_hi.length, if Even m then wt.dec_hi.getD m 0 else 0) = ge at *
  generalize (∑ m ∈ range wt.dec_hi.length, if Even m then 0 else wt.dec_hi.getD m 0) = god at *
  have hg : god = -ge := by linarith
  subst hg
  have hge : ge ≠ 0 := by rintro rfl; norm_num at a2
  have hh : he = hod := by
    have : (he - hod) * ge = 0 := by linarith
    rcases mul_eq_zero.1 this with h | h
    · linarith
    · exact absurd h hge
  subst hh
  exact ⟨by nlinarith, by ring⟩

theorem orthonormal_sum {wt : Wavelet} (ho : OrthonormalBank wt) {M : ℕ} (hM : VanishingMoments wt.dec_hi M) (hM1 : 1 ≤ M) :
    (∑ m ∈ range wt.dec_lo.length, wt.dec_lo.getD m 0) ^ 2 = 2 := (orthonormal_lo ho hM hM1).1

theorem orthonormal_hi_ne {wt : Wavelet} (ho : OrthonormalBank wt) : ∃ m, wt.dec_hi.getD m 0 ≠ 0 := by
  by_contra h
  push Not at h
  have := ho.hi 0
  rw [evenCorrelation] at this
  simp only [h, mul_zero, ite_self, sum_const_zero] at this
  norm_num at this

end

end MFA
