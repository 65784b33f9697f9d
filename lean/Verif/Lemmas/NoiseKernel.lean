import Verif.Lemmas.Selfsim
import Verif.Props.Decorrelation
import Mathlib.Analysis.SpecialFunctions.Trigonometric.Bounds

/-! The wavelet transform of fractional Gaussian noise: the variance at scale `j` behaves like `2^(j(2H-1))`. -/

namespace MFA

open Finset MeasureTheory Complex

noncomputable section

/-- The autocovariance of the increments of a process with variogram `|t|^a`. -/
def noiseKernel (a : ℝ) (n : ℤ) : ℝ := (|(n : ℝ) + 1| ^ a - 2 * |(n : ℝ)| ^ a + |(n : ℝ) - 1| ^ a) / 2

theorem noiseKernel_spectral {a : ℝ} (h0 : 0 < a) (h2 : a < 2) (n : ℤ) :
    IntegrableOn (fun θ : ℝ => Real.cos ((n : ℝ) * θ) * ((1 - Real.cos θ) * θ ^ (-1 - a))) (Set.Ioi 0) ∧
    noiseKernel a n = (specConst a)⁻¹ * ∫ θ in Set.Ioi (0:ℝ), Real.cos ((n : ℝ) * θ) * ((1 - Real.cos θ) * θ ^ (-1 - a)) := by
  have hC := specConst_pos h0 h2
  obtain ⟨i1, e1⟩ := cos_kernel_scaled h0 h2 ((n : ℝ) + 1)
  obtain ⟨i2, e2⟩ := cos_kernel_scaled h0 h2 ((n : ℝ) - 1)
  obtain ⟨i3, e3⟩ := cos_kernel_scaled h0 h2 (n : ℝ)
  have i0 : IntegrableOn (fun θ : ℝ => (1 - Real.cos (((n : ℝ) + 1) * θ)) * θ ^ (-1 - a) + (1 - Real.cos (((n : ℝ) - 1) * θ)) * θ ^ (-1 - a)) (Set.Ioi 0) := i1.add i2
  have i33 := i3.const_mul 2
  have i12 : IntegrableOn (fun θ : ℝ => (1 - Real.cos (((n : ℝ) + 1) * θ)) * θ ^ (-1 - a) + (1 - Real.cos (((n : ℝ) - 1) * θ)) * θ ^ (-1 - a) -
    2 * ((1 - Real.cos ((n : ℝ) * θ)) * θ ^ (-1 - a))) (Set.Ioi 0) := i0.sub i33
  have hfun : (fun θ : ℝ => Real.cos ((n : ℝ) * θ) * ((1 - Real.cos θ) * θ ^ (-1 - a))) =
      fun θ => (1 / 2 : ℝ) * ((1 - Real.cos (((n : ℝ) + 1) * θ)) * θ ^ (-1 - a) + (1 - Real.cos (((n : ℝ) - 1) * θ)) * θ ^ (-1 - a) -
        2 * ((1 - Real.cos ((n : ℝ) * θ)) * θ ^ (-1 - a))) := by
    funext θ
    rw [add_mul (n : ℝ) 1 θ, sub_mul (n : ℝ) 1 θ, one_mul, Real.cos_add, Real.cos_sub]
    ring
  rw [hfun]
  refine ⟨i12.const_mul _, ?_⟩
  rw [integral_const_mul, integral_sub i0 i33, integral_add i1 i2, integral_const_mul, e1, e2, e3, noiseKernel]
  field_simp
  ring

/-- Spectral form of the variance of a detail of the noise. -/
theorem noise_spectral_form (wt : Wavelet) {a : ℝ} (h0 : 0 < a) (h2 : a < 2) (j : ℕ) :
    IntegrableOn (fun θ : ℝ => (∏ i ∈ range j, filtSq wt.dec_lo (2 ^ i * θ)) * filtSq wt.dec_hi (2 ^ j * θ) * ((1 - Real.cos θ) * θ ^ (-1 - a))) (Set.Ioi 0) ∧
    dblDetail wt (noiseKernel a) j = (specConst a)⁻¹ * ∫ θ in Set.Ioi (0:ℝ),
      (∏ i ∈ range j, filtSq wt.dec_lo (2 ^ i * θ)) * filtSq wt.dec_hi (2 ^ j * θ) * ((1 - Real.cos θ) * θ ^ (-1 - a)) := by
  obtain ⟨b, -, hb, hm⟩ := weight_finsupp wt j
  have hfun : (fun θ : ℝ => (∏ i ∈ range j, filtSq wt.dec_lo (2 ^ i * θ)) * filtSq wt.dec_hi (2 ^ j * θ) * ((1 - Real.cos θ) * θ ^ (-1 - a))) =
      fun θ => ∑ s ∈ b.support, ∑ t ∈ b.support, b s * b t * (Real.cos (((s - t : ℤ) : ℝ) * θ) * ((1 - Real.cos θ) * θ ^ (-1 - a))) := by
    funext θ
    rw [← hm θ, modSq_eq, sum_mul]
    refine sum_congr rfl fun s _ => ?_
    rw [sum_mul]
    refine sum_congr rfl fun t _ => ?_
    push_cast; ring
  have hi : ∀ s ∈ b.support, ∀ t ∈ b.support, IntegrableOn (fun θ : ℝ => b s * b t * (Real.cos (((s - t : ℤ) : ℝ) * θ) * ((1 - Real.cos θ) * θ ^ (-1 - a)))) (Set.Ioi 0) :=
    fun s _ t _ => (noiseKernel_spectral h0 h2 (s - t)).1.const_mul _
  rw [hfun]
  refine ⟨integrable_finsetSum _ fun s hs => integrable_finsetSum _ fun t ht => hi s hs t ht, ?_⟩
  rw [integral_finsetSum _ fun s hs => integrable_finsetSum _ fun t ht => hi s hs t ht, mul_sum, dblDetail_eq wt _ j hb]
  refine sum_congr rfl fun s hs => ?_
  rw [integral_finsetSum _ fun t ht => hi s hs t ht, mul_sum]
  refine sum_congr rfl fun t ht => ?_
  rw [integral_const_mul, (noiseKernel_spectral h0 h2 (s - t)).2]
  ring

/-- Lower bound of the variance at every scale. -/
theorem noise_lower {wt : Wavelet} (hlo : (∑ m ∈ range wt.dec_lo.length, wt.dec_lo.getD m 0) ^ 2 = 2) (hhi : ∃ m, wt.dec_hi.getD m 0 ≠ 0)
    {a : ℝ} (h0 : 0 < a) (h2 : a < 2) : ∃ c, 0 < c ∧ ∀ j, c * ((2:ℝ) ^ (a - 1)) ^ j ≤ dblDetail wt (noiseKernel a) j := by
  obtain ⟨K, hK, hlow⟩ := filtSq_low wt.dec_lo hlo
  have hδ : 0 < 1 / (2 * K) := by positivity
  have hδ1 : 1 / (2 * K) ≤ 1 := by rw [div_le_one (by positivity)]; linarith
  obtain ⟨θ₀, p0, p1, p2⟩ := filtSq_ne_zero hhi hδ
  have hπ := Real.pi_pos
  have hκ : (0:ℝ) < 2 / Real.pi ^ 2 := by positivity
  obtain ⟨κ, hκd⟩ : ∃ κ, κ = 2 / Real.pi ^ 2 := ⟨_, rfl⟩
  rw [← hκd] at hκ
  have hcos : ∀ θ : ℝ, 0 < θ → θ ≤ 1 → κ * θ ^ (1 - a) ≤ (1 - Real.cos θ) * θ ^ (-1 - a) := by
    intro θ hθ hθ1
    have h3 := Real.cos_le_one_sub_mul_cos_sq (x := θ) (by rw [abs_of_pos hθ]; linarith [Real.two_le_pi])
    have h4 : κ * θ ^ 2 ≤ 1 - Real.cos θ := by rw [hκd]; linarith
    have e : θ ^ (1 - a) = θ ^ 2 * θ ^ (-1 - a) := by
      rw [← Real.rpow_natCast θ 2, ← Real.rpow_add hθ]; congr 1; push_cast; ring
    rw [e, ← mul_assoc]
    exact mul_le_mul_of_nonneg_right h4 (Real.rpow_nonneg hθ.le _)
  let F : ℝ → ℝ := fun φ => if φ < 1 / (2 * K) then filtSq wt.dec_hi φ * (1 / 2) * (κ * φ ^ (1 - a)) else 0
  have hF0 : ∀ φ, 0 < φ → 0 ≤ F φ := by
    intro φ hφ
    simp only [F]
    split
    · exact mul_nonneg (mul_nonneg (filtSq_nonneg _ _) (by norm_num)) (mul_nonneg hκ.le (Real.rpow_nonneg hφ.le _))
    · exact le_rfl
  have spec := noise_spectral_form wt h0 h2
  have hFm : Measurable F := by
    refine Measurable.ite measurableSet_Iio ?_ measurable_const
    exact ((filtSq_continuous _).measurable.mul_const _).mul (by fun_prop)
  have hker : ∀ φ : ℝ, 0 < φ → 0 ≤ (1 - Real.cos φ) * φ ^ (-1 - a) := fun φ hφ =>
    mul_nonneg (by linarith [Real.cos_le_one φ]) (Real.rpow_nonneg hφ.le _)
  have hFi : IntegrableOn F (Set.Ioi 0) := by
    refine (spec 0).1.mono' hFm.aestronglyMeasurable.restrict ?_
    refine (ae_restrict_iff' measurableSet_Ioi).2 (Filter.Eventually.of_forall fun φ hφ => ?_)
    have hφ : 0 < φ := hφ
    rw [Real.norm_of_nonneg (hF0 φ hφ)]
    simp only [F, range_zero, prod_empty, one_mul, pow_zero]
    split
    · rename_i hlt
      refine mul_le_mul ?_ (hcos φ hφ (hlt.le.trans hδ1)) (mul_nonneg hκ.le (Real.rpow_nonneg hφ.le _)) (filtSq_nonneg _ _)
      have := filtSq_nonneg wt.dec_hi φ
      linarith
    · exact mul_nonneg (filtSq_nonneg _ _) (hker φ hφ)
  have hFp : 0 < ∫ φ in Set.Ioi (0:ℝ), F φ := by
    rw [setIntegral_pos_iff_support_of_nonneg_ae]
    · have hopen : IsOpen ({φ : ℝ | 0 < filtSq wt.dec_hi φ} ∩ Set.Ioo 0 (1 / (2 * K))) :=
        (isOpen_lt continuous_const (filtSq_continuous _)).inter isOpen_Ioo
      have hpos := hopen.measure_pos volume ⟨θ₀, p2, p0, p1⟩
      refine hpos.trans_le (measure_mono ?_)
      rintro φ ⟨hφ, hφ1, hφ2⟩
      refine ⟨?_, hφ1⟩
      rw [Function.mem_support]
      simp only [F]
      rw [if_pos hφ2]
      exact (mul_pos (mul_pos hφ (by norm_num)) (mul_pos hκ (Real.rpow_pos_of_pos hφ1 _))).ne'
    · exact (ae_restrict_iff' measurableSet_Ioi).2 (Filter.Eventually.of_forall fun φ hφ => hF0 φ hφ)
    · exact hFi
  refine ⟨(specConst a)⁻¹ * ∫ φ in Set.Ioi (0:ℝ), F φ, mul_pos (inv_pos.2 (specConst_pos h0 h2)) hFp, fun j => ?_⟩
  rw [(spec j).2, mul_assoc]
  refine mul_le_mul_of_nonneg_left ?_ (inv_pos.2 (specConst_pos h0 h2)).le
  have hp : (0:ℝ) < 2 ^ j := by positivity
  have hp1 : (1:ℝ) ≤ 2 ^ j := one_le_pow₀ (by norm_num)
  have hsc : ∫ θ in Set.Ioi (0:ℝ), F (2 ^ j * θ) = (2 ^ j)⁻¹ * ∫ φ in Set.Ioi (0:ℝ), F φ := by
    rw [integral_comp_mul_left_Ioi F 0 hp, mul_zero, smul_eq_mul]
  have hint : IntegrableOn (fun θ => F (2 ^ j * θ)) (Set.Ioi 0) :=
    (integrableOn_Ioi_comp_mul_left_iff F 0 hp).2 (by rw [mul_zero]; exact hFi)
  have e : (∫ φ in Set.Ioi (0:ℝ), F φ) * ((2:ℝ) ^ (a - 1)) ^ j =
      ∫ θ in Set.Ioi (0:ℝ), (2 ^ j * ((2:ℝ) ^ (a - 1)) ^ j) * F (2 ^ j * θ) := by
    rw [integral_const_mul, hsc]
    field_simp
  rw [e]
  refine setIntegral_mono_on (hint.const_mul _) (spec j).1 measurableSet_Ioi fun θ hθ => ?_
  have hθ : 0 < θ := hθ
  simp only [F]
  have hprod : 0 ≤ ∏ i ∈ range j, filtSq wt.dec_lo (2 ^ i * θ) := prod_nonneg fun i _ => filtSq_nonneg _ _
  split
  · rename_i hlt
    have hK1 : K * (2 ^ j * θ) ≤ 1 / 2 := by
      rw [lt_div_iff₀ (by positivity)] at hlt
      linarith
    have h3 := prod_low hK hlow j hθ.le (by linarith)
    have h4 : (2:ℝ) ^ j * (1 / 2) ≤ ∏ i ∈ range j, filtSq wt.dec_lo (2 ^ i * θ) := by
      refine le_trans (mul_le_mul_of_nonneg_left ?_ hp.le) h3
      have : 0 ≤ K * θ := by positivity
      nlinarith
    have hθ1 : θ ≤ 1 := by
      have : θ ≤ 2 ^ j * θ := le_mul_of_one_le_left hθ.le hp1
      linarith
    have e2 : ((2:ℝ) ^ j * θ) ^ (1 - a) = (((2:ℝ) ^ (a - 1)) ^ j)⁻¹ * θ ^ (1 - a) := by
      rw [Real.mul_rpow hp.le hθ.le]
      congr 1
      rw [← Real.rpow_natCast, ← Real.rpow_natCast, ← Real.rpow_mul (by norm_num), ← Real.rpow_mul (by norm_num), ← Real.rpow_neg (by norm_num)]
      congr 1; ring
    rw [e2]
    have hq : (0:ℝ) < ((2:ℝ) ^ (a - 1)) ^ j := by positivity
    have e3 : (2 ^ j * ((2:ℝ) ^ (a - 1)) ^ j) * (filtSq wt.dec_hi (2 ^ j * θ) * (1 / 2) * (κ * ((((2:ℝ) ^ (a - 1)) ^ j)⁻¹ * θ ^ (1 - a)))) =
        (2 ^ j * (1 / 2)) * filtSq wt.dec_hi (2 ^ j * θ) * (κ * θ ^ (1 - a)) := by field_simp
    rw [e3]
    exact mul_le_mul (mul_le_mul_of_nonneg_right h4 (filtSq_nonneg _ _)) (hcos θ hθ hθ1)
      (mul_nonneg hκ.le (Real.rpow_nonneg hθ.le _)) (mul_nonneg hprod (filtSq_nonneg _ _))
  · rw [mul_zero]
    exact mul_nonneg (mul_nonneg hprod (filtSq_nonneg _ _)) (hker θ hθ)

/-- The double detail of a summable function is bounded uniformly in the scale. -/
theorem dblDetail_summable {wt : Wavelet} (hwt : wt.Valid) (ho : OrthonormalBank wt) {E : ℤ → ℝ} (hE : Summable fun n => |E n|) (j : ℕ) :
    |dblDetail wt E j| ≤ ∑' n, |E n| := by
  obtain ⟨b, hb, hbx, -⟩ := weight_finsupp wt j
  rw [dblDetail_eq wt E j hbx]
  have hnorm : ∑ s ∈ b.support, b s ^ 2 = 1 := by
    have := detail_weight hwt ho (j := j + 1) (j' := j + 1) (by omega) (by omega) 0 0
    rw [hbx, if_pos ⟨rfl, rfl⟩] at this
    rw [← this]
    exact sum_congr rfl fun s _ => by rw [← hb, sq]
  have h1 : |∑ s ∈ b.support, ∑ t ∈ b.support, b s * b t * E (s - t)| ≤
      ∑ s ∈ b.support, ∑ t ∈ b.support, ((b s ^ 2 + b t ^ 2) / 2) * |E (s - t)| := by
    refine (abs_sum_le_sum_abs _ _).trans (sum_le_sum fun s _ => ?_)
    refine (abs_sum_le_sum_abs _ _).trans (sum_le_sum fun t _ => ?_)
    rw [abs_mul]
    refine mul_le_mul_of_nonneg_right ?_ (abs_nonneg _)
    rw [abs_le]
    constructor <;> nlinarith [sq_nonneg (b s - b t), sq_nonneg (b s + b t)]
  have hl : ∀ s : ℤ, ∑ t ∈ b.support, |E (s - t)| ≤ ∑' n, |E n| := by
    intro s
    rw [← sum_image (f := fun n : ℤ => |E n|) (g := fun t => s - t) (fun x _ y _ h => by simpa using h)]
    exact hE.sum_le_tsum _ fun n _ => abs_nonneg _
  have hr : ∀ t : ℤ, ∑ s ∈ b.support, |E (s - t)| ≤ ∑' n, |E n| := by
    intro t
    rw [← sum_image (f := fun n : ℤ => |E n|) (g := fun s => s - t) (fun x _ y _ h => by simpa using h)]
    exact hE.sum_le_tsum _ fun n _ => abs_nonneg _
  refine h1.trans ?_
  have e : ∑ s ∈ b.support, ∑ t ∈ b.support, ((b s ^ 2 + b t ^ 2) / 2) * |E (s - t)| =
      (∑ s ∈ b.support, b s ^ 2 * ∑ t ∈ b.support, |E (s - t)|) / 2 + (∑ t ∈ b.support, b t ^ 2 * ∑ s ∈ b.support, |E (s - t)|) / 2 := by
    simp only [mul_sum]
    rw [sum_comm (f := fun t s => b t ^ 2 * |E (s - t)|), ← add_div, ← sum_add_distrib, sum_div]
    refine sum_congr rfl fun s _ => ?_
    rw [← sum_add_distrib, sum_div]
    exact sum_congr rfl fun t _ => by ring
  rw [e]
  have h2 : ∑ s ∈ b.support, b s ^ 2 * ∑ t ∈ b.support, |E (s - t)| ≤ ∑' n, |E n| := by
    refine (sum_le_sum fun s _ => mul_le_mul_of_nonneg_left (hl s) (sq_nonneg _)).trans (le_of_eq ?_)
    rw [← sum_mul, hnorm, one_mul]
  have h3 : ∑ t ∈ b.support, b t ^ 2 * ∑ s ∈ b.support, |E (s - t)| ≤ ∑' n, |E n| := by
    refine (sum_le_sum fun t _ => mul_le_mul_of_nonneg_left (hr t) (sq_nonneg _)).trans (le_of_eq ?_)
    rw [← sum_mul, hnorm, one_mul]
  linarith

/-- A combination of powers with vanishing moments decays. -/
theorem comb_decay {ι : Type*} (S : Finset ι) (w v : ι → ℝ) (n : ℕ) (hm : ∀ i < n, ∑ l ∈ S, w l * v l ^ i = 0) (a : ℝ) :
    ∃ C K : ℝ, 0 ≤ C ∧ 1 ≤ K ∧ ∀ D : ℝ, K ≤ |D| → |∑ l ∈ S, w l * |D + v l| ^ a| ≤ C * |D| ^ (a - n) := by
  obtain ⟨c, δ, C, hδ, hC, hT⟩ := rpow_taylor a n
  obtain ⟨B, hB0, hB⟩ : ∃ B : ℝ, 0 ≤ B ∧ ∀ l ∈ S, |v l| ≤ B :=
    ⟨∑ l ∈ S, |v l|, sum_nonneg fun _ _ => abs_nonneg _, fun l hl => single_le_sum (f := fun l => |v l|) (fun _ _ => abs_nonneg _) hl⟩
  refine ⟨∑ l ∈ S, |w l| * (C * |v l| ^ n), max 1 ((B + 1) / δ), sum_nonneg fun _ _ => by positivity, le_max_left _ _, fun D hD => ?_⟩
  have hD1 : 1 ≤ |D| := (le_max_left _ _).trans hD
  have hD0 : 0 < |D| := by linarith
  have hDne : D ≠ 0 := abs_pos.1 hD0
  have hDδ : B + 1 ≤ |D| * δ := by
    rw [← div_le_iff₀ hδ]; exact (le_max_right _ _).trans hD
  have hz : ∑ l ∈ S, w l * (|D| ^ a * ∑ i ∈ range n, c i * (v l / D) ^ i) = 0 := by
    have e : ∑ l ∈ S, w l * (|D| ^ a * ∑ i ∈ range n, c i * (v l / D) ^ i) =
        ∑ i ∈ range n, |D| ^ a * c i / D ^ i * ∑ l ∈ S, w l * v l ^ i := by
      simp only [mul_sum]
      rw [sum_comm]
      refine sum_congr rfl fun i _ => sum_congr rfl fun l _ => ?_
      rw [div_pow]; ring
    rw [e]
    exact sum_eq_zero fun i hi => by rw [hm i (mem_range.1 hi), mul_zero]
  rw [← sub_zero (∑ l ∈ S, _), ← hz, ← sum_sub_distrib, sum_mul]
  refine (abs_sum_le_sum_abs _ _).trans (sum_le_sum fun l hl => ?_)
  rw [← mul_sub, abs_mul, mul_assoc]
  refine mul_le_mul_of_nonneg_left ?_ (abs_nonneg _)
  have hu : |v l / D| < δ := by
    rw [abs_div, div_lt_iff₀ hD0]
    have := hB l hl
    linarith
  have e1 : |D + v l| ^ a = |D| ^ a * |1 + v l / D| ^ a := by
    rw [← Real.mul_rpow (abs_nonneg _) (abs_nonneg _), ← abs_mul]
    congr 2; field_simp
  rw [e1, ← mul_sub, abs_mul, abs_of_nonneg (by positivity : 0 ≤ |D| ^ a)]
  refine (mul_le_mul_of_nonneg_left (hT _ hu) (by positivity)).trans (le_of_eq ?_)
  rw [abs_div, div_pow, Real.rpow_sub hD0, Real.rpow_natCast]; ring

/-- One step of the low-pass filter multiplies the kernel by `2^(a-1)`, up to a summable error. -/
theorem noise_step {lo : List ℝ} (hlo : (∑ m ∈ range lo.length, lo.getD m 0) ^ 2 = 2) {a : ℝ} (h0 : 0 < a) (h2 : a < 2) :
    Summable fun n : ℤ => |lowStep lo (noiseKernel a) n - (2:ℝ) ^ (a - 1) * noiseKernel a n| := by
  let c : ℤ → ℝ := fun e => if e = 0 then -2 else 1
  let S : Finset ((ℕ × ℕ × ℤ) ⊕ ℤ) := (range lo.length ×ˢ range lo.length ×ˢ ({-1, 0, 1} : Finset ℤ)).disjSum ({-1, 0, 1} : Finset ℤ)
  let w : (ℕ × ℕ × ℤ) ⊕ ℤ → ℝ := Sum.elim (fun p => lo.getD p.1 0 * lo.getD p.2.1 0 * (c p.2.2 / 2)) (fun e => -(c e / 4))
  let v : (ℕ × ℕ × ℤ) ⊕ ℤ → ℝ := Sum.elim (fun p => (p.2.1 : ℝ) - p.1 + p.2.2) (fun e => 2 * (e : ℝ))
  have three : ∀ f : ℤ → ℝ, ∑ e ∈ ({-1, 0, 1} : Finset ℤ), f e = f (-1) + f 0 + f 1 := by
    intro f
    rw [sum_insert (by decide), sum_insert (by decide), sum_singleton]; ring
  have tot : ∀ f : (ℕ × ℕ × ℤ) ⊕ ℤ → ℝ, ∑ l ∈ S, f l = (∑ m ∈ range lo.length, ∑ m' ∈ range lo.length,
      (f (.inl (m, m', -1)) + f (.inl (m, m', 0)) + f (.inl (m, m', 1)))) + (f (.inr (-1)) + f (.inr 0) + f (.inr 1)) := by
    intro f
    simp only [S]
    rw [sum_disjSum, sum_product, three]
    congr 1
    refine sum_congr rfl fun m _ => ?_
    rw [sum_product]
    exact sum_congr rfl fun m' _ => three _
  have hsq : ∑ m ∈ range lo.length, ∑ m' ∈ range lo.length, lo.getD m 0 * lo.getD m' 0 = 2 := by
    rw [← sum_mul_sum, ← sq, hlo]
  have hm : ∀ i < 3, ∑ l ∈ S, w l * v l ^ i = 0 := by
    intro i hi
    rw [tot]
    simp only [w, v, c, Sum.elim_inl, Sum.elim_inr]
    interval_cases i
    · norm_num
      refine sum_eq_zero fun m _ => sum_eq_zero fun m' _ => by ring
    · norm_num
      refine sum_eq_zero fun m _ => sum_eq_zero fun m' _ => by ring
    · norm_num
      rw [← sub_eq_add_neg, sub_eq_zero]
      simp only [List.getD_eq_getElem?_getD] at hsq
      refine Eq.trans ?_ hsq
      exact sum_congr rfl fun m _ => sum_congr rfl fun m' _ => by ring
  obtain ⟨C, K, hC, hK, hd⟩ := comb_decay S w v 3 hm a
  have hval : ∀ n : ℤ, lowStep lo (noiseKernel a) n - (2:ℝ) ^ (a - 1) * noiseKernel a n = ∑ l ∈ S, w l * |2 * (n : ℝ) + v l| ^ a := by
    intro n
    rw [tot]
    simp only [w, v, c, Sum.elim_inl, Sum.elim_inr]
    have two : ∀ x : ℝ, |2 * x| ^ a = 2 * (2:ℝ) ^ (a - 1) * |x| ^ a := by
      intro x
      rw [abs_mul, abs_two, Real.mul_rpow (by norm_num) (abs_nonneg _), Real.rpow_sub (by norm_num), Real.rpow_one]
      ring
    rw [lowStep, sub_eq_add_neg]
    congr 1
    · refine sum_congr rfl fun m _ => sum_congr rfl fun m' _ => ?_
      rw [noiseKernel]
      push_cast
      rw [show 2 * (n : ℝ) - m + m' + 1 = 2 * n + (m' - m + 1) by ring, show 2 * (n : ℝ) - m + m' - 1 = 2 * n + (m' - m + -1) by ring,
        show 2 * (n : ℝ) - m + m' = 2 * n + (m' - m + 0) by ring]
      norm_num
      ring
    · rw [noiseKernel]
      push_cast
      rw [show 2 * (n : ℝ) + 2 * -1 = 2 * (n - 1) by ring, show 2 * (n : ℝ) + 2 * 0 = 2 * n by ring, show 2 * (n : ℝ) + 2 * 1 = 2 * (n + 1) by ring,
        two, two, two]
      norm_num
      ring
  simp only [hval]
  have hb : ∀ n : ℤ, K ≤ |(n : ℝ)| → |∑ l ∈ S, w l * |2 * (n : ℝ) + v l| ^ a| ≤ C * |(n : ℝ)| ^ (a - 3) := by
    intro n hn
    have hn0 : 0 < |(n : ℝ)| := by linarith
    have h2n : |2 * (n : ℝ)| = 2 * |(n : ℝ)| := by rw [abs_mul, abs_two]
    refine (hd (2 * (n : ℝ)) (by rw [h2n]; linarith)).trans (mul_le_mul_of_nonneg_left ?_ hC)
    push_cast
    exact Real.rpow_le_rpow_of_nonpos hn0 (by rw [h2n]; linarith) (by linarith)
  obtain ⟨C', hC', hb'⟩ := decay_everywhere (f := fun n : ℤ => ∑ l ∈ S, w l * |2 * (n : ℝ) + v l| ^ a) (by linarith) hC hK hb
  exact Summable.of_nonneg_of_le (fun n => abs_nonneg _) hb' ((summable_decay (by linarith)).mul_left C')

/-- A sequence which is almost geometric, with errors of a smaller order. -/
theorem geometric_limit {U : ℕ → ℝ} {c D lam ν : ℝ} (hν : 0 < ν) (hlam : ν < lam) (hD : 0 ≤ D) (hc : 0 < c)
    (hrec : ∀ j, |U (j + 1) - lam * U j| ≤ D * ν ^ j) (hlow : ∀ j, c * lam ^ j ≤ U j) :
    ∃ V C, 0 < V ∧ 0 ≤ C ∧ ∀ j : ℕ, |U j - V * lam ^ j| ≤ C * ν ^ j := by
  have hlam0 : 0 < lam := by linarith
  let u : ℕ → ℝ := fun j => U j / lam ^ j
  have hu : ∀ j, dist (u j) (u (j + 1)) ≤ D / lam * (ν / lam) ^ j := by
    intro j
    have e : u j - u (j + 1) = -((U (j + 1) - lam * U j) / lam ^ (j + 1)) := by
      simp only [u]; field_simp; ring
    rw [Real.dist_eq, e, abs_neg, abs_div, abs_of_pos (by positivity : 0 < lam ^ (j + 1)), div_le_iff₀ (by positivity)]
    refine (hrec j).trans (le_of_eq ?_)
    rw [div_pow, pow_succ]; field_simp
  have hr : ν / lam < 1 := by rw [div_lt_one hlam0]; exact hlam
  obtain ⟨V, hV⟩ := cauchySeq_tendsto_of_complete (cauchySeq_of_le_geometric _ _ hr hu)
  have hd := dist_le_of_le_geometric_of_tendsto _ _ hr hu hV
  refine ⟨V, D / lam / (1 - ν / lam), ?_, ?_, fun j => ?_⟩
  · have : c ≤ V := by
      refine ge_of_tendsto' hV fun j => ?_
      simp only [u]
      rw [le_div_iff₀ (by positivity)]
      exact hlow j
    linarith
  · exact div_nonneg (by positivity) (by linarith)
  · have h3 := hd j
    rw [Real.dist_eq] at h3
    have e : U j - V * lam ^ j = (u j - V) * lam ^ j := by
      simp only [u]
      rw [sub_mul, div_mul_cancel₀ _ (by positivity)]
    rw [e, abs_mul, abs_of_pos (by positivity : 0 < lam ^ j)]
    refine (mul_le_mul_of_nonneg_right h3 (by positivity)).trans (le_of_eq ?_)
    have : (ν / lam) ^ j * lam ^ j = ν ^ j := by rw [← mul_pow, div_mul_cancel₀ _ hlam0.ne']
    calc _ = D / lam / (1 - ν / lam) * ((ν / lam) ^ j * lam ^ j) := by ring
      _ = _ := by rw [this]

theorem dblDetail_step_sub (wt : Wavelet) (G : ℤ → ℝ) (lam : ℝ) (j : ℕ) :
    dblDetail wt G (j + 1) - lam * dblDetail wt G j = dblDetail wt (fun n => lowStep wt.dec_lo G n - lam * G n) j := by
  obtain ⟨b, -, hbx, -⟩ := weight_finsupp wt j
  rw [dblDetail_succ, dblDetail_eq wt _ j hbx, dblDetail_eq wt _ j hbx, dblDetail_eq wt _ j hbx, mul_sum, ← sum_sub_distrib]
  refine sum_congr rfl fun s _ => ?_
  rw [mul_sum, ← sum_sub_distrib]
  exact sum_congr rfl fun t _ => by ring

/-- **Scaling of the noise**, `1/2 < H < 1`: the variance at scale `j + 1` is `V 2^(j(a-1)) + O(1)`, with `V > 0`. -/
theorem noise_asymptotic {wt : Wavelet} (hwt : wt.Valid) (ho : OrthonormalBank wt)
    (hlo : (∑ m ∈ range wt.dec_lo.length, wt.dec_lo.getD m 0) ^ 2 = 2) (hhi : ∃ m, wt.dec_hi.getD m 0 ≠ 0) {a : ℝ} (h1 : 1 < a) (h2 : a < 2) :
    ∃ V C, 0 < V ∧ 0 ≤ C ∧ ∀ j : ℕ, |dblDetail wt (noiseKernel a) j - V * ((2:ℝ) ^ (a - 1)) ^ j| ≤ C * 1 ^ j := by
  have h0 : 0 < a := by linarith
  obtain ⟨c, hc, hlow⟩ := noise_lower hlo hhi h0 h2
  have hS := noise_step hlo h0 h2
  refine geometric_limit (D := ∑' n, |lowStep wt.dec_lo (noiseKernel a) n - (2:ℝ) ^ (a - 1) * noiseKernel a n|) one_pos
    (Real.one_lt_rpow (by norm_num) (by linarith)) (tsum_nonneg fun n => abs_nonneg _) hc (fun j => ?_) hlow
  rw [one_pow, mul_one, dblDetail_step_sub]
  exact dblDetail_summable hwt ho hS j

theorem noiseKernel_white (n : ℤ) : noiseKernel 1 n = if n = 0 then 1 else 0 := by
  rw [noiseKernel]
  simp only [Real.rpow_one]
  split
  · rename_i h; subst h; norm_num
  · rename_i h
    rcases lt_or_gt_of_ne h with h | h
    · have h' : (n : ℝ) ≤ -1 := by exact_mod_cast (by omega : n ≤ -1)
      rw [abs_of_nonpos (by linarith), abs_of_nonpos (by linarith), abs_of_nonpos (by linarith)]; ring
    · have h' : (1 : ℝ) ≤ n := by exact_mod_cast (by omega : 1 ≤ n)
      rw [abs_of_nonneg (by linarith), abs_of_nonneg (by linarith), abs_of_nonneg (by linarith)]; ring

theorem noise_white {wt : Wavelet} (hwt : wt.Valid) (ho : OrthonormalBank wt) (j : ℕ) : dblDetail wt (noiseKernel 1) j = 1 := by
  obtain ⟨b, hb, hbx, -⟩ := weight_finsupp wt j
  rw [dblDetail_eq wt _ j hbx]
  have := detail_weight hwt ho (j := j + 1) (j' := j + 1) (by omega) (by omega) 0 0
  rw [hbx, if_pos ⟨rfl, rfl⟩] at this
  refine Eq.trans ?_ this
  refine sum_congr rfl fun s hs => ?_
  rw [sum_eq_single s]
  · rw [sub_self, noiseKernel_white, if_pos rfl, mul_one, hb]
  · intro t _ ht
    rw [noiseKernel_white, if_neg (by omega), mul_zero]
  · intro h; exact absurd hs h

/-- The weights of the increments of a detail have one more vanishing moment. -/
theorem difference_moments {b : ℤ →₀ ℝ} {M : ℕ} (hb : ∀ i < M, (b.sum fun s c => c * (s : ℝ) ^ i) = 0) : ∃ b' : ℤ →₀ ℝ,
    (∀ f : ℤ → ℝ, (b'.sum fun s c => c * f s) = b.sum fun s c => c * (f (s + 1) - f s)) ∧
    ∀ i < M + 1, (b'.sum fun s c => c * (s : ℝ) ^ i) = 0 := by
  have key : ∀ f : ℤ → ℝ, ((b.mapDomain (· + 1) - b).sum fun s c => c * f s) = b.sum fun s c => c * (f (s + 1) - f s) := by
    intro f
    have h1 : ∀ d : ℤ →₀ ℝ, (d.sum fun s c => c * f s) = Finsupp.linearCombination ℝ f d := fun d => by
      rw [Finsupp.linearCombination_apply]; rfl
    rw [h1, map_sub, Finsupp.linearCombination_mapDomain, Finsupp.linearCombination_apply, Finsupp.linearCombination_apply]
    simp only [Finsupp.sum, ← sum_sub_distrib]
    exact sum_congr rfl fun s _ => by simp only [Function.comp_apply, smul_eq_mul]; ring
  refine ⟨b.mapDomain (· + 1) - b, key, fun i hi => ?_⟩
  rw [key fun s => (s : ℝ) ^ i]
  have e : ∀ s : ℤ, (((s + 1 : ℤ) : ℝ)) ^ i - (s : ℝ) ^ i = ∑ m ∈ range i, (s : ℝ) ^ m * (i.choose m : ℝ) := by
    intro s
    push_cast
    rw [add_pow, sum_range_succ]
    simp
  simp only [e, Finsupp.sum, mul_sum]
  rw [sum_comm]
  refine sum_eq_zero fun m hm => ?_
  have := hb m (by have := mem_range.1 hm; omega)
  simp only [Finsupp.sum] at this
  have e2 : ∀ s ∈ b.support, b s * ((s:ℝ) ^ m * (i.choose m : ℝ)) = (b s * (s:ℝ) ^ m) * (i.choose m : ℝ) := fun s _ => by ring
  rw [sum_congr rfl e2, ← sum_mul, this, zero_mul]

/-- The covariance of two details of the noise decays two orders faster than that of the details of the motion. -/
theorem noise_decay {wt : Wavelet} {M : ℕ} (hM : VanishingMoments wt.dec_hi M) {a : ℝ} (ha : a ≤ 2 * M + 2) {j j' : ℕ} (hj : 1 ≤ j) (hj' : 1 ≤ j') :
    ∃ T : ℤ → ℝ, (∃ C, 0 ≤ C ∧ ∀ n : ℤ, |T n| ≤ C * (1 + |(n : ℝ)|) ^ (a - 2 * M - 2)) ∧
      ∀ k k' : ℤ, idealDetail wt (fun s => idealDetail wt (fun t => noiseKernel a (s - t)) j' k') j k = T (k * 2 ^ j - k' * 2 ^ j') := by
  obtain ⟨b, hb⟩ := idealDetail_finsupp wt hj
  obtain ⟨b', hb'⟩ := idealDetail_finsupp wt hj'
  have mom : ∀ {b : ℤ →₀ ℝ} {j : ℕ}, (∀ (x : ℤ → ℝ) (k : ℤ), idealDetail wt x j k = b.sum fun i c => c * x (i + k * 2 ^ j)) →
      ∀ i < M, (b.sum fun s c => c * (s : ℝ) ^ i) = 0 := by
    intro b j h i hi
    have h1 := idealDetail_vanish wt hM (Polynomial.X ^ i) (by rw [Polynomial.natDegree_X_pow]; exact hi) j 0
    rw [h] at h1
    simpa using h1
  obtain ⟨d, hd, hdm⟩ := difference_moments (mom hb)
  obtain ⟨d', hd', hdm'⟩ := difference_moments (mom hb')
  obtain ⟨C, K, hC, hK, hdec⟩ := double_decay hdm hdm' a
  have hT : ∀ n : ℤ, (b.sum fun s c => c * b'.sum fun t c' => c' * noiseKernel a (n + (s - t))) =
      -(d.sum fun s c => c * d'.sum fun t c' => c' * |(n : ℝ) + (s - t)| ^ a) / 2 := by
    intro n
    rw [hd fun s => d'.sum fun t c' => c' * |(n : ℝ) + (s - t)| ^ a]
    have e1 : ∀ s : ℤ, (d'.sum fun t c' => c' * |(n : ℝ) + ((s : ℝ) - t)| ^ a) =
        b'.sum fun t c' => c' * (|(n : ℝ) + ((s : ℝ) - (t + 1 : ℤ))| ^ a - |(n : ℝ) + ((s : ℝ) - t)| ^ a) := fun s =>
      hd' fun t => |(n : ℝ) + ((s : ℝ) - t)| ^ a
    simp only [e1]
    simp only [Finsupp.sum, ← sum_neg_distrib, sum_div]
    refine sum_congr rfl fun s _ => ?_
    rw [← sum_sub_distrib, mul_sum, mul_sum, ← sum_neg_distrib, sum_div]
    refine sum_congr rfl fun t _ => ?_
    rw [noiseKernel]
    push_cast
    rw [show (n : ℝ) + (s + 1 - (t + 1)) = n + (s - t) by ring, show (n : ℝ) + (s + 1 - t) = n + (s - t) + 1 by ring,
      show (n : ℝ) + (s - (t + 1)) = n + (s - t) - 1 by ring]
    ring
  refine ⟨fun n => b.sum fun s c => c * b'.sum fun t c' => c' * noiseKernel a (n + (s - t)), ?_, fun k k' => ?_⟩
  · refine decay_everywhere (by linarith) (C := C) hC hK fun n hn => ?_
    rw [hT, abs_div, abs_neg, abs_two, div_le_iff₀ (by norm_num)]
    have h3 := hdec n hn
    have e : a - 2 * ((M + 1 : ℕ) : ℝ) = a - 2 * M - 2 := by push_cast; ring
    rw [e] at h3
    have : 0 ≤ C * |(n : ℝ)| ^ (a - 2 * M - 2) := by positivity
    linarith
  · rw [hb]
    simp only [hb']
    congr 1; funext s c; congr 2; funext t d; congr 2
    ring

/-! ### Anti-persistent noise, `H < 1/2` -/

/-- A quadratic form with a summable kernel. -/
theorem quad_summable (d : ℤ →₀ ℝ) {E : ℤ → ℝ} (hE : Summable fun n => |E n|) :
    |d.sum fun s c => c * d.sum fun t c' => c' * E (s - t)| ≤ (d.sum fun _ c => c ^ 2) * ∑' n, |E n| := by
  have h1 : |∑ s ∈ d.support, d s * ∑ t ∈ d.support, d t * E (s - t)| ≤
      ∑ s ∈ d.support, ∑ t ∈ d.support, ((d s ^ 2 + d t ^ 2) / 2) * |E (s - t)| := by
    refine (abs_sum_le_sum_abs _ _).trans (sum_le_sum fun s _ => ?_)
    rw [mul_sum]
    refine (abs_sum_le_sum_abs _ _).trans (sum_le_sum fun t _ => ?_)
    rw [← mul_assoc, abs_mul]
    refine mul_le_mul_of_nonneg_right ?_ (abs_nonneg _)
    rw [abs_le]
    constructor <;> nlinarith [sq_nonneg (d s - d t), sq_nonneg (d s + d t)]
  have hl : ∀ s : ℤ, ∑ t ∈ d.support, |E (s - t)| ≤ ∑' n, |E n| := by
    intro s
    rw [← sum_image (f := fun n : ℤ => |E n|) (g := fun t => s - t) (fun x _ y _ h => by simpa using h)]
    exact hE.sum_le_tsum _ fun n _ => abs_nonneg _
  have hr : ∀ t : ℤ, ∑ s ∈ d.support, |E (s - t)| ≤ ∑' n, |E n| := by
    intro t
    rw [← sum_image (f := fun n : ℤ => |E n|) (g := fun s => s - t) (fun x _ y _ h => by simpa using h)]
    exact hE.sum_le_tsum _ fun n _ => abs_nonneg _
  simp only [Finsupp.sum]
  refine h1.trans ?_
  have e : ∑ s ∈ d.support, ∑ t ∈ d.support, ((d s ^ 2 + d t ^ 2) / 2) * |E (s - t)| =
      (∑ s ∈ d.support, d s ^ 2 * ∑ t ∈ d.support, |E (s - t)|) / 2 + (∑ t ∈ d.support, d t ^ 2 * ∑ s ∈ d.support, |E (s - t)|) / 2 := by
    simp only [mul_sum]
    rw [sum_comm (f := fun t s => d t ^ 2 * |E (s - t)|), ← add_div, ← sum_add_distrib, sum_div]
    refine sum_congr rfl fun s _ => ?_
    rw [← sum_add_distrib, sum_div]
    exact sum_congr rfl fun t _ => by ring
  rw [e]
  have h2 : ∑ s ∈ d.support, d s ^ 2 * ∑ t ∈ d.support, |E (s - t)| ≤ (∑ s ∈ d.support, d s ^ 2) * ∑' n, |E n| := by
    rw [sum_mul]
    exact sum_le_sum fun s _ => mul_le_mul_of_nonneg_left (hl s) (sq_nonneg _)
  have h3 : ∑ t ∈ d.support, d t ^ 2 * ∑ s ∈ d.support, |E (s - t)| ≤ (∑ s ∈ d.support, d s ^ 2) * ∑' n, |E n| := by
    rw [sum_mul]
    exact sum_le_sum fun t _ => mul_le_mul_of_nonneg_left (hr t) (sq_nonneg _)
  linarith

/-- The opposite of the second difference. -/
def secondDiff (E : ℤ → ℝ) (n : ℤ) : ℝ := 2 * E n - E (n + 1) - E (n - 1)

/-- The double detail of a second difference, in terms of the increments of the weights. -/
theorem dblDetail_increments (wt : Wavelet) (j : ℕ) : ∃ d : ℤ →₀ ℝ, (∀ t, d t = weight wt (j + 1) 0 (t + 1) - weight wt (j + 1) 0 t) ∧
    ∀ E : ℤ → ℝ, dblDetail wt (secondDiff E) j = d.sum fun s c => c * d.sum fun t c' => c' * E (s - t) := by
  obtain ⟨b, hb, hbx, -⟩ := weight_finsupp wt j
  have hlc : ∀ (d : ℤ →₀ ℝ) (f : ℤ → ℝ), (d.sum fun s c => c * f s) = Finsupp.linearCombination ℝ f d := fun d f => by
    rw [Finsupp.linearCombination_apply]; rfl
  obtain ⟨d, hdd⟩ : ∃ d : ℤ →₀ ℝ, d = b.mapDomain (· - 1) - b := ⟨_, rfl⟩
  have key : ∀ f : ℤ → ℝ, (d.sum fun s c => c * f s) = b.sum fun s c => c * (f (s - 1) - f s) := by
    intro f
    rw [hlc, hdd, map_sub, Finsupp.linearCombination_mapDomain, Finsupp.linearCombination_apply, Finsupp.linearCombination_apply]
    simp only [Finsupp.sum, ← sum_sub_distrib]
    exact sum_congr rfl fun s _ => by simp only [Function.comp_apply, smul_eq_mul]; ring
  refine ⟨d, fun t => ?_, fun E => ?_⟩
  · simp only [hdd, Finsupp.sub_apply]
    have h1 : b.mapDomain (· - 1) t = b (t + 1) := by
      have := Finsupp.mapDomain_apply (f := fun s : ℤ => s - 1) (fun x y h => by simpa using h) b (t + 1)
      simpa using this
    rw [h1, hb, hb]
  · rw [dblDetail_eq wt _ j hbx, key fun s => d.sum fun t c' => c' * E (s - t)]
    simp only [key fun t => E (_ - t)]
    simp only [Finsupp.sum]
    refine sum_congr rfl fun s _ => ?_
    rw [← sum_sub_distrib, mul_sum]
    refine sum_congr rfl fun t _ => ?_
    rw [secondDiff, show s - 1 - (t - 1) = s - t by ring, show s - 1 - t = s - t - 1 by ring, show s - (t - 1) = s - t + 1 by ring]
    ring

theorem dblDetail_secondDiff {wt : Wavelet} (hr : RegularWavelet wt) : ∃ C : ℝ, 0 ≤ C ∧ ∀ {E : ℤ → ℝ}, (Summable fun n => |E n|) →
    ∀ j, |dblDetail wt (secondDiff E) j| ≤ C * (∑' n, |E n|) * (1 / 2) ^ j := by
  obtain ⟨C, hC⟩ := hr
  have hC0 : 0 ≤ C := by
    have := hC 1 le_rfl ∅
    simp only [sum_empty] at this
    linarith
  refine ⟨C, hC0, fun {E} hE j => ?_⟩
  obtain ⟨d, hd, e⟩ := dblDetail_increments wt j
  have hsq : (d.sum fun _ c => c ^ 2) ≤ C * (1 / 2) ^ j := by
    have := hC (j + 1) (by omega) d.support
    simp only [Finsupp.sum, hd]
    refine this.trans ?_
    rw [pow_succ, div_pow, one_pow, mul_one_div]
    exact div_le_div_of_nonneg_left hC0 (by positivity) (by have : (0:ℝ) < 2 ^ j := by positivity
                                                            linarith)
  rw [e]
  refine (quad_summable d hE).trans ((mul_le_mul_of_nonneg_right hsq (tsum_nonneg fun n => abs_nonneg _)).trans (le_of_eq (by ring)))

/-- The second difference of the unit impulse: regularity of a wavelet is a property of one sequence. -/
theorem regular_of_bound {wt : Wavelet} {C : ℝ} (h : ∀ j, dblDetail wt (secondDiff fun n => if n = 0 then 1 else 0) j ≤ C * (1 / 2) ^ j) :
    RegularWavelet wt := by
  refine ⟨2 * C, fun j hj S => ?_⟩
  obtain ⟨i, rfl⟩ : ∃ i, j = i + 1 := ⟨j - 1, by omega⟩
  obtain ⟨d, hd, e⟩ := dblDetail_increments wt i
  have h1 : dblDetail wt (secondDiff fun n => if n = 0 then 1 else 0) i = ∑ s ∈ d.support, d s ^ 2 := by
    rw [e]
    simp only [Finsupp.sum]
    refine sum_congr rfl fun s hs => ?_
    rw [sum_eq_single s]
    · simp [sq]
    · intro t _ hne; rw [if_neg (by omega), mul_zero]
    · intro h'; exact absurd hs h'
  have h2 : ∑ t ∈ S, (weight wt (i + 1) 0 (t + 1) - weight wt (i + 1) 0 t) ^ 2 ≤ ∑ s ∈ d.support, d s ^ 2 := by
    simp only [← hd]
    have : ∑ t ∈ S, d t ^ 2 = ∑ t ∈ S ∩ d.support, d t ^ 2 := by
      refine (sum_subset inter_subset_left fun t ht hn => ?_).symm
      have : t ∉ d.support := fun h' => hn (mem_inter.2 ⟨ht, h'⟩)
      rw [Finsupp.notMem_support_iff.1 this]; ring
    rw [this]
    exact sum_le_sum_of_subset_of_nonneg inter_subset_right fun _ _ _ => sq_nonneg _
  refine h2.trans (h1 ▸ (h i).trans (le_of_eq ?_))
  rw [pow_succ, div_pow, one_pow]; field_simp

theorem dblDetail_lin (wt : Wavelet) (G G' : ℤ → ℝ) (p q : ℝ) (j : ℕ) :
    dblDetail wt (fun n => p * G n + q * G' n) j = p * dblDetail wt G j + q * dblDetail wt G' j := by
  obtain ⟨b, -, hbx, -⟩ := weight_finsupp wt j
  rw [dblDetail_eq wt _ j hbx, dblDetail_eq wt _ j hbx, dblDetail_eq wt _ j hbx, mul_sum, mul_sum, ← sum_add_distrib]
  refine sum_congr rfl fun s _ => ?_
  rw [mul_sum, mul_sum, ← sum_add_distrib]
  exact sum_congr rfl fun t _ => by ring

/-- Sums against a filter with a zero at the highest frequency. -/
theorem filter_factor {f : List ℝ} (hf : ∑ m ∈ range f.length, (-1) ^ m * f.getD m 0 = 0) : ∃ u : ℕ → ℝ, ∀ φ : ℕ → ℝ,
    ∑ m ∈ range f.length, f.getD m 0 * φ m = ∑ m ∈ range f.length, u m * (φ m + φ (m + 1)) := by
  let u : ℕ → ℝ := fun m => ∑ i ∈ range (m + 1), (-1) ^ (m - i) * f.getD i 0
  have hu0 : u 0 = f.getD 0 0 := by simp [u]
  have hus : ∀ m, u (m + 1) + u m = f.getD (m + 1) 0 := by
    intro m
    simp only [u]
    rw [sum_range_succ _ (m + 1), Nat.sub_self, pow_zero, one_mul]
    have : ∑ i ∈ range (m + 1), (-1 : ℝ) ^ (m + 1 - i) * f.getD i 0 = -∑ i ∈ range (m + 1), (-1 : ℝ) ^ (m - i) * f.getD i 0 := by
      rw [← sum_neg_distrib]
      refine sum_congr rfl fun i hi => ?_
      rw [show m + 1 - i = (m - i) + 1 by have := mem_range.1 hi; omega, pow_succ]; ring
    rw [this]; ring
  have hul : ∀ n, ∀ φ : ℕ → ℝ, ∑ m ∈ range (n + 1), f.getD m 0 * φ m + u n * φ (n + 1) = ∑ m ∈ range (n + 1), u m * (φ m + φ (m + 1)) := by
    intro n φ
    induction n with
    | zero => rw [sum_range_one, sum_range_one, hu0]; ring
    | succ n ih => rw [sum_range_succ _ (n + 1), sum_range_succ _ (n + 1), ← ih, ← hus n]; ring
  refine ⟨u, fun φ => ?_⟩
  rcases Nat.eq_zero_or_pos f.length with h0 | hpos
  · rw [h0]; simp
  obtain ⟨n, hn⟩ : ∃ n, f.length = n + 1 := ⟨f.length - 1, by omega⟩
  have hun : u n = 0 := by
    have : (-1 : ℝ) ^ n * u n = ∑ m ∈ range f.length, (-1) ^ m * f.getD m 0 := by
      simp only [u]
      rw [hn, mul_sum]
      refine sum_congr rfl fun i hi => ?_
      have hle : i ≤ n := by have := mem_range.1 hi; omega
      obtain ⟨k, rfl⟩ := Nat.exists_eq_add_of_le hle
      rw [← mul_assoc, ← pow_add, show i + k + (i + k - i) = i + 2 * k by omega, pow_add, pow_mul]; norm_num
    rw [hf] at this
    exact (mul_eq_zero.1 this).resolve_left (by positivity)
  rw [hn, ← hul n φ, hun]; ring

/-- One step of the low-pass filter, `H < 1/2`: the error is the second difference of a summable function. -/
theorem noise_step_anti {lo : List ℝ} (hlo : (∑ m ∈ range lo.length, lo.getD m 0) ^ 2 = 2)
    (halt : ∑ m ∈ range lo.length, (-1) ^ m * lo.getD m 0 = 0) {a : ℝ} (h0 : 0 < a) (h1 : a < 1) :
    ∃ E : ℤ → ℝ, (Summable fun n => |E n|) ∧ ∀ n : ℤ, lowStep lo (noiseKernel a) n - (2:ℝ) ^ (a - 1) * noiseKernel a n = secondDiff E n := by
  obtain ⟨u, hu⟩ := filter_factor halt
  obtain ⟨L, hL⟩ : ∃ L, L = lo.length := ⟨_, rfl⟩
  rw [← hL] at hu hlo
  have hus : (∑ m ∈ range L, u m) ^ 2 = 1 / 2 := by
    have := hu fun _ => 1
    simp only [mul_one] at this
    rw [this, ← sum_mul] at hlo
    nlinarith
  let S : Finset ((ℕ × ℕ) ⊕ Unit) := (range L ×ˢ range L).disjSum ({()} : Finset Unit)
  let w : (ℕ × ℕ) ⊕ Unit → ℝ := Sum.elim (fun p => u p.1 * u p.2) (fun _ => -(1 / 2))
  let v : (ℕ × ℕ) ⊕ Unit → ℝ := Sum.elim (fun p => (p.2 : ℝ) - p.1) (fun _ => 0)
  have tot : ∀ f : (ℕ × ℕ) ⊕ Unit → ℝ, ∑ l ∈ S, f l = (∑ m ∈ range L, ∑ m' ∈ range L, f (.inl (m, m'))) + f (.inr ()) := by
    intro f
    simp only [S]
    rw [sum_disjSum, sum_product, sum_singleton]
  have hm : ∀ i < 2, ∑ l ∈ S, w l * v l ^ i = 0 := by
    intro i hi
    rw [tot]
    simp only [w, v, Sum.elim_inl, Sum.elim_inr]
    interval_cases i
    · simp only [pow_zero, mul_one]
      rw [← sum_mul_sum, ← sq, hus]; norm_num
    · simp only [pow_one, mul_zero, add_zero]
      have h3 : ∑ m ∈ range L, ∑ m' ∈ range L, u m * u m' * ((m' : ℝ) - m) = -∑ m ∈ range L, ∑ m' ∈ range L, u m * u m' * ((m' : ℝ) - m) := by
        rw [← sum_neg_distrib, sum_comm]
        refine sum_congr rfl fun m _ => ?_
        rw [← sum_neg_distrib]
        exact sum_congr rfl fun m' _ => by ring
      linarith
  obtain ⟨C, K, hC, hK, hd⟩ := comb_decay S w v 2 hm a
  have hb : ∀ n : ℤ, K ≤ |(n : ℝ)| → |-(1 / 2) * ∑ l ∈ S, w l * |2 * (n : ℝ) + v l| ^ a| ≤ C * |(n : ℝ)| ^ (a - 2) := by
    intro n hn
    have hn0 : 0 < |(n : ℝ)| := by linarith
    have h2n : |2 * (n : ℝ)| = 2 * |(n : ℝ)| := by rw [abs_mul, abs_two]
    have h3 := hd (2 * (n : ℝ)) (by rw [h2n]; linarith)
    have h4 : |2 * (n : ℝ)| ^ (a - ((2 : ℕ) : ℝ)) ≤ |(n : ℝ)| ^ (a - 2) := by
      push_cast
      exact Real.rpow_le_rpow_of_nonpos hn0 (by rw [h2n]; linarith) (by linarith)
    have h5 := mul_le_mul_of_nonneg_left h4 hC
    rw [abs_mul, abs_neg, abs_of_pos (by norm_num : (0:ℝ) < 1 / 2)]
    have := abs_nonneg (∑ l ∈ S, w l * |2 * (n : ℝ) + v l| ^ a)
    linarith
  obtain ⟨C', hC', hb'⟩ := decay_everywhere (f := fun n : ℤ => -(1 / 2) * ∑ l ∈ S, w l * |2 * (n : ℝ) + v l| ^ a) (by linarith) hC hK hb
  refine ⟨fun n => -(1 / 2) * ∑ l ∈ S, w l * |2 * (n : ℝ) + v l| ^ a,
    Summable.of_nonneg_of_le (fun n => abs_nonneg _) hb' ((summable_decay (by linarith)).mul_left C'), fun n => ?_⟩
  have two : ∀ x : ℝ, |2 * x| ^ a = 2 * (2:ℝ) ^ (a - 1) * |x| ^ a := by
    intro x
    rw [abs_mul, abs_two, Real.mul_rpow (by norm_num) (abs_nonneg _), Real.rpow_sub (by norm_num), Real.rpow_one]
    ring
  have hE : ∀ n : ℤ, ∑ l ∈ S, w l * |2 * (n : ℝ) + v l| ^ a = (∑ m ∈ range L, ∑ m' ∈ range L, u m * u m' * |2 * (n : ℝ) + (m' - m)| ^ a) -
      (2:ℝ) ^ (a - 1) * |(n : ℝ)| ^ a := by
    intro n
    rw [tot]
    simp only [w, v, Sum.elim_inl, Sum.elim_inr]
    rw [add_zero, two]
    ring
  simp only [secondDiff, hE]
  -- factor the filter, twice
  have hstep : lowStep lo (noiseKernel a) n = ∑ m ∈ range L, ∑ m' ∈ range L, u m * u m' *
      (noiseKernel a (2 * n - m + m') + noiseKernel a (2 * n - m + (m' + 1)) + noiseKernel a (2 * n - (m + 1) + m') +
        noiseKernel a (2 * n - (m + 1) + (m' + 1))) := by
    rw [lowStep, ← hL]
    have e1 : ∀ m, ∑ m' ∈ range L, lo.getD m 0 * lo.getD m' 0 * noiseKernel a (2 * n - m + m') =
        lo.getD m 0 * ∑ m' ∈ range L, u m' * (noiseKernel a (2 * n - m + m') + noiseKernel a (2 * n - m + ((m' + 1 : ℕ) : ℤ))) := by
      intro m
      rw [← hu fun m' => noiseKernel a (2 * n - m + m'), mul_sum]
      exact sum_congr rfl fun m' _ => by ring
    simp only [e1]
    rw [hu fun m => ∑ m' ∈ range L, u m' * (noiseKernel a (2 * n - m + m') + noiseKernel a (2 * n - m + ((m' + 1 : ℕ) : ℤ)))]
    refine sum_congr rfl fun m _ => ?_
    rw [← sum_add_distrib, mul_sum]
    refine sum_congr rfl fun m' _ => ?_
    push_cast
    ring
  rw [hstep]
  have e2 : ∀ m m' : ℕ, noiseKernel a (2 * n - m + m') + noiseKernel a (2 * n - m + (m' + 1)) + noiseKernel a (2 * n - (m + 1) + m') +
        noiseKernel a (2 * n - (m + 1) + (m' + 1)) =
      (|2 * ((n + 1 : ℤ) : ℝ) + ((m' : ℝ) - m)| ^ a - 2 * |2 * (n : ℝ) + ((m' : ℝ) - m)| ^ a + |2 * ((n - 1 : ℤ) : ℝ) + ((m' : ℝ) - m)| ^ a) / 2 := by
    intro m m'
    simp only [noiseKernel]
    push_cast
    ring_nf
  simp only [e2]
  have e3 : ∑ m ∈ range L, ∑ m' ∈ range L, u m * u m' *
      ((|2 * ((n + 1 : ℤ) : ℝ) + ((m' : ℝ) - m)| ^ a - 2 * |2 * (n : ℝ) + ((m' : ℝ) - m)| ^ a + |2 * ((n - 1 : ℤ) : ℝ) + ((m' : ℝ) - m)| ^ a) / 2) =
      (∑ m ∈ range L, ∑ m' ∈ range L, u m * u m' * |2 * ((n + 1 : ℤ) : ℝ) + (m' - m)| ^ a) / 2 -
      (∑ m ∈ range L, ∑ m' ∈ range L, u m * u m' * |2 * (n : ℝ) + (m' - m)| ^ a) +
      (∑ m ∈ range L, ∑ m' ∈ range L, u m * u m' * |2 * ((n - 1 : ℤ) : ℝ) + (m' - m)| ^ a) / 2 := by
    simp only [sum_div]
    rw [← sum_sub_distrib, ← sum_add_distrib]
    refine sum_congr rfl fun m _ => ?_
    rw [← sum_sub_distrib, ← sum_add_distrib]
    exact sum_congr rfl fun m' _ => by ring
  rw [e3, noiseKernel]
  push_cast
  ring

/-- **Scaling of the noise**, `0 < H < 1/2`: the variance at scale `j + 1` is `V 2^(j(a-1)) + O(2^(-j))`, with `V > 0`. -/
theorem noise_asymptotic_anti {wt : Wavelet} (hr : RegularWavelet wt)
    (hlo : (∑ m ∈ range wt.dec_lo.length, wt.dec_lo.getD m 0) ^ 2 = 2) (halt : ∑ m ∈ range wt.dec_lo.length, (-1) ^ m * wt.dec_lo.getD m 0 = 0)
    (hhi : ∃ m, wt.dec_hi.getD m 0 ≠ 0) {a : ℝ} (h0 : 0 < a) (h1 : a < 1) :
    ∃ V C, 0 < V ∧ 0 ≤ C ∧ ∀ j : ℕ, |dblDetail wt (noiseKernel a) j - V * ((2:ℝ) ^ (a - 1)) ^ j| ≤ C * (1 / 2) ^ j := by
  obtain ⟨c, hc, hlow⟩ := noise_lower hlo hhi h0 (by linarith)
  obtain ⟨E, hE, hS⟩ := noise_step_anti hlo halt h0 h1
  obtain ⟨C, hC, hd⟩ := dblDetail_secondDiff hr
  have hl : (1:ℝ) / 2 < (2:ℝ) ^ (a - 1) := by
    have := Real.rpow_lt_rpow_of_exponent_lt (by norm_num : (1:ℝ) < 2) (show (-1:ℝ) < a - 1 by linarith)
    rwa [Real.rpow_neg_one, ← one_div] at this
  refine geometric_limit (D := C * ∑' n, |E n|) (by norm_num) hl (mul_nonneg hC (tsum_nonneg fun n => abs_nonneg _)) hc (fun j => ?_) hlow
  rw [dblDetail_step_sub, funext hS]
  exact hd hE j

end

end MFA
