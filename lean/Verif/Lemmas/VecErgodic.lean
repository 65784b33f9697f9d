import Verif.Lemmas.VecGebelein
import Verif.Props.LargeNumbers

/-! The mean of an even function of weakly dependent Gaussian vectors, and the law of large numbers for vectors of coefficients. -/

namespace MFA

universe u

open Classical Finset MeasureTheory ProbabilityTheory

noncomputable section

/-- The mean square error of an empirical mean. -/
theorem mean_msq {Ω : Type u} [MeasurableSpace Ω] {μ : Measure Ω} [IsProbabilityMeasure μ] {ι : Type*} (K : Finset ι) (hK : K.Nonempty)
    {φ : ι → Ω → ℝ} {m : ℝ} {B : ι → ι → ℝ} (h1 : ∀ i ∈ K, Integrable (φ i) μ) (h2 : ∀ i ∈ K, ∫ ω, φ i ω ∂μ = m)
    (h3 : ∀ i ∈ K, ∀ k ∈ K, Integrable (fun ω => φ i ω * φ k ω) μ)
    (h4 : ∀ i ∈ K, ∀ k ∈ K, ∫ ω, φ i ω * φ k ω ∂μ ≤ m ^ 2 + B i k) :
    Integrable (fun ω => ((∑ i ∈ K, φ i ω) / K.card - m) ^ 2) μ ∧
    ∫ ω, ((∑ i ∈ K, φ i ω) / K.card - m) ^ 2 ∂μ ≤ (∑ i ∈ K, ∑ k ∈ K, B i k) / (K.card : ℝ) ^ 2 := by
  have hn : (K.card : ℝ) ≠ 0 := by exact_mod_cast (Finset.card_pos.2 hK).ne'
  have hmean : ∫ ω, (∑ i ∈ K, φ i ω) / K.card ∂μ = m := by
    rw [integral_div, integral_finsetSum _ h1, sum_congr rfl h2, sum_const, nsmul_eq_mul]; field_simp
  have hI : Integrable (fun ω => (∑ i ∈ K, φ i ω) / (K.card : ℝ)) μ := (integrable_finsetSum _ h1).div_const _
  have e2 : (fun ω => ((∑ i ∈ K, φ i ω) / K.card - m) ^ 2) = fun ω =>
      (∑ i ∈ K, ∑ k ∈ K, φ i ω * φ k ω) / (K.card : ℝ) ^ 2 - 2 * m * ((∑ i ∈ K, φ i ω) / K.card) + m ^ 2 := by
    funext ω
    rw [← sum_mul_sum]; field_simp; ring
  have A1 : Integrable (fun ω => (∑ i ∈ K, ∑ k ∈ K, φ i ω * φ k ω) / (K.card : ℝ) ^ 2) μ :=
    (integrable_finsetSum _ fun i hi => integrable_finsetSum _ fun k hk => h3 i hi k hk).div_const _
  have A2 : Integrable (fun ω => 2 * m * ((∑ i ∈ K, φ i ω) / K.card)) μ := hI.const_mul _
  have A12 : Integrable (fun ω => (∑ i ∈ K, ∑ k ∈ K, φ i ω * φ k ω) / (K.card : ℝ) ^ 2 -
    2 * m * ((∑ i ∈ K, φ i ω) / K.card)) μ := A1.sub A2
  refine ⟨by rw [e2]; exact A12.add (integrable_const _), ?_⟩
  rw [e2, integral_add A12 (integrable_const _), integral_sub A1 A2, integral_const_mul, hmean, integral_div,
    integral_finsetSum _ fun i hi => integrable_finsetSum _ fun k hk => h3 i hi k hk]
  have e3 : ∀ i ∈ K, ∫ ω, ∑ k ∈ K, φ i ω * φ k ω ∂μ ≤ K.card * m ^ 2 + ∑ k ∈ K, B i k := by
    intro i hi'
    rw [integral_finsetSum _ fun k hk => h3 i hi' k hk]
    refine (sum_le_sum fun k hk => h4 i hi' k hk).trans (le_of_eq ?_)
    rw [sum_add_distrib, sum_const, nsmul_eq_mul]
  have h5 := sum_le_sum e3
  rw [sum_add_distrib, sum_const, nsmul_eq_mul] at h5
  simp only [integral_const, probReal_univ, one_smul]
  have hn2 : 0 < (K.card : ℝ) ^ 2 := by positivity
  have h6 := div_le_div_of_nonneg_right h5 hn2.le
  rw [add_div] at h6
  have e4 : (K.card : ℝ) * (K.card * m ^ 2) / (K.card : ℝ) ^ 2 = m ^ 2 := by field_simp
  rw [e4] at h6
  linarith

variable {wt : Wavelet}

/-- The law of large numbers for even functions of the normalised vectors of coefficients (one coordinate for each column). -/
theorem vec_llnG {M : ℕ} (hM : VanishingMoments wt.dec_hi M) (hM1 : 1 ≤ M) (hwt : wt.Valid) {G : ℤ → ℝ}
    {h β : ℝ} (hK : ScalingKernel wt G h β) (g nm : ℝ) (R : ℕ) (hR : R ≠ 0) : ∃ (τ : ℕ → ℝ) (V B : ℝ), 0 < V ∧ 0 ≤ B ∧
    (∀ j : ℕ, 1 ≤ j → 0 < τ j ∧ |Real.logb 2 (τ j) - (Real.logb 2 V + j * coefExponent h g nm)| ≤ B * (2:ℝ) ^ (-(2 * β * j))) ∧
    ∀ (j : ℕ) {f : (Fin R → ℝ) → ℝ}, Measurable f → (∀ x, f (-x) = f x) → Integrable (fun x => f x ^ 2) (stdGs R) → 1 ≤ j → ∃ D, 0 ≤ D ∧
    ∀ {Ω : Type u} [MeasurableSpace Ω] {μ : Measure Ω} {c : ℝ} {N : ℕ} {x : Ω → List (Fin R → ℝ)} {w : Ω → WT R}, 0 < c →
      IncrementAnalysis μ wt G c g nm N x w → ∀ {ω₀ : Ω}, j ≤ (w ω₀).wt_coefs.values.length →
      Integrable (fun ω => ((∑ k ∈ interior N wt.dec_hi.length j, f fun r => (w ω).wt_coefs.number j k r / √(c * τ j)) /
        (interior N wt.dec_hi.length j).card - ∫ x, f x ∂stdGs R) ^ 2) μ ∧
      ∫ ω, ((∑ k ∈ interior N wt.dec_hi.length j, f fun r => (w ω).wt_coefs.number j k r / √(c * τ j)) /
        (interior N wt.dec_hi.length j).card - ∫ x, f x ∂stdGs R) ^ 2 ∂μ ≤ D / (interior N wt.dec_hi.length j).card := by
  obtain ⟨V, B, hV, hB, hlaw⟩ := hK.law
  choose! T C e hC he hT hd using hK.decay
  obtain ⟨K0, hK0, hgeb⟩ := vec_gebelein.{u} R
  have two : (0:ℝ) < 2 := by norm_num
  obtain ⟨τ, hτ⟩ : ∃ τ : ℕ → ℝ, τ = fun j : ℕ => (2:ℝ) ^ (2 * (j : ℝ) * (1 / 2 - 1 / nm + g)) * -dblDetail wt G (j - 1) := ⟨_, rfl⟩
  have hτp : ∀ j, 0 < τ j := fun j => by rw [hτ]; exact mul_pos (by positivity) (hlaw (j - 1)).1
  have hτl : ∀ j : ℕ, 1 ≤ j → |Real.logb 2 (τ j) - (Real.logb 2 V + j * coefExponent h g nm)| ≤ B * (2:ℝ) ^ (-(2 * β * j)) := by
    intro j hj
    obtain ⟨i, rfl⟩ : ∃ i, j = i + 1 := ⟨j - 1, by omega⟩
    obtain ⟨a1, a2⟩ := hlaw i
    rw [hτ]
    simp only [Nat.add_sub_cancel]
    rw [Real.logb_mul (by positivity) a1.ne', Real.logb_rpow two (by norm_num)]
    push_cast
    refine le_trans (le_of_eq ?_) a2
    congr 1
    unfold coefExponent
    ring
  have hT0 : ∀ j : ℕ, 1 ≤ j → -((2:ℝ) ^ (2 * (j : ℝ) * (1 / 2 - 1 / nm + g)) * T j 0) = τ j := by
    intro j hj
    obtain ⟨i, rfl⟩ : ∃ i, j = i + 1 := ⟨j - 1, by omega⟩
    have := hd (i + 1) hj 0 0
    rw [show (0:ℤ) * 2 ^ (i + 1) - 0 * 2 ^ (i + 1) = 0 by ring] at this
    rw [hτ]
    simp only [Nat.add_sub_cancel]
    rw [dblDetail, this]
    ring
  refine ⟨τ, V, B, hV, hB, fun j hj => ⟨hτp j, hτl j hj⟩, ?_⟩
  intro j f hf hfe hfi hj
  refine ⟨K0 * (∫ x, f x ^ 2 ∂stdGs R) * ((2 ^ (2 * (j : ℝ) * (1 / 2 - 1 / nm + g)) * C j / τ j) ^ 2 * ∑' n : ℤ, (1 + |(n : ℝ)|) ^ (2 * e j)), ?_, ?_⟩
  · have : 0 ≤ ∫ x, f x ^ 2 ∂stdGs R := integral_nonneg fun x => sq_nonneg _
    have : 0 ≤ ∑' n : ℤ, (1 + |(n : ℝ)|) ^ (2 * e j) := tsum_nonneg fun n => by positivity
    positivity
  intro Ω _ μ c N x w hc hw ω₀ hjl
  have t1 := hτp j
  have hp := hw.prob
  have hcard := hw.card hwt hR hj hjl
  obtain ⟨A, hA⟩ := hw.signal
  obtain ⟨p, j1, j2, weighted, hwa⟩ := hw.analysis
  obtain ⟨K, hKd⟩ : ∃ K, K = interior N wt.dec_hi.length j := ⟨_, rfl⟩
  have hrep : ∀ k ∈ K, ∀ r, (w ω₀).wt_coefs.Reported j k r := fun k hk r => hw.reported hwt hj hjl (hKd ▸ hk) r
  rw [← hKd] at hcard ⊢
  have hcov : ∀ k ∈ K, ∀ k' ∈ K, ∀ r s, ∫ ω, (w ω).wt_coefs.number j k r * (w ω).wt_coefs.number j k' s ∂μ =
      if r = s then c * -((2:ℝ) ^ (2 * (j : ℝ) * (1 / 2 - 1 / nm + g)) * T j ((k : ℤ) * 2 ^ j - (k' : ℤ) * 2 ^ j)) else 0 := by
    intro k hk k' hk' r s
    by_cases hrs : r = s
    · subst hrs
      rw [if_pos rfl, C89_covariance (A := A) (G := fun i => c * G i) (fun n m => rfl) hM hM1 hwt hA.toHasCovariance hwa (hrep k hk r) (hrep k' hk' r) r,
        nested_mul wt c G, hd j hj, ← Real.rpow_add two]
      rw [show (j : ℝ) * (1 / 2 - 1 / nm + g) + (j : ℝ) * (1 / 2 - 1 / nm + g) = 2 * (j : ℝ) * (1 / 2 - 1 / nm + g) by ring]
      ring
    · rw [if_neg hrs, (C88_covariance hwt hA.toHasCovariance hwa (hrep k hk r) (hrep k' hk' s) r s).2.2.2, if_neg hrs]
  have hV0 : 0 < c * τ j := mul_pos hc t1
  have hs : √(c * τ j) * √(c * τ j) = c * τ j := Real.mul_self_sqrt hV0.le
  obtain ⟨ρ, hρ⟩ : ∃ ρ : ℕ → ℕ → ℝ, ρ = fun (k k' : ℕ) => -((2:ℝ) ^ (2 * (j : ℝ) * (1 / 2 - 1 / nm + g)) * T j ((k : ℤ) * 2 ^ j - (k' : ℤ) * 2 ^ j)) / τ j := ⟨_, rfl⟩
  have hcov' : ∀ k ∈ K, ∀ k' ∈ K, ∀ r s, ∫ ω, (w ω).wt_coefs.number j k r / √(c * τ j) * ((w ω).wt_coefs.number j k' s / √(c * τ j)) ∂μ =
      if r = s then ρ k k' else 0 := by
    intro k hk k' hk' r s
    have e : (fun ω => (w ω).wt_coefs.number j k r / √(c * τ j) * ((w ω).wt_coefs.number j k' s / √(c * τ j))) =
        fun ω => (w ω).wt_coefs.number j k r * (w ω).wt_coefs.number j k' s / (c * τ j) := by
      funext ω; rw [div_mul_div_comm, hs]
    rw [e, integral_div, hcov k hk k' hk', hρ]
    split
    · rw [mul_div_mul_left _ _ hc.ne']
    · rw [zero_div]
  have hρ1 : ∀ k, ρ k k = 1 := by
    intro k
    rw [hρ]
    simp only [sub_self]
    rw [hT0 j hj, div_self t1.ne']
  have hmean : ∀ k ∈ K, ∀ r, ∫ ω, (w ω).wt_coefs.number j k r / √(c * τ j) ∂μ = 0 := by
    intro k hk r
    rw [integral_div, (C88_covariance hwt hA.toHasCovariance hwa (hrep k hk r) (hrep k hk r) r r).2.1, zero_div]
  have hgauss : ∀ k ∈ K, ∀ k' ∈ K, HasGaussianLaw (fun ω (a : Fin R ⊕ Fin R) => Sum.elim (fun r => (w ω).wt_coefs.number j k r / √(c * τ j))
      (fun r => (w ω).wt_coefs.number j k' r / √(c * τ j)) a) μ := by
    intro k hk k' hk'
    have h1 := coefs_gaussian hwt hA hwa (ω₀ := ω₀) (κ := Fin R ⊕ Fin R) (Sum.elim (fun r => (j, k, r)) fun r => (j, k', r))
      (by rintro (r | r); exacts [hrep k hk r, hrep k' hk' r])
    have h2 := h1.map_fun ((√(c * τ j))⁻¹ • ContinuousLinearMap.id ℝ (Fin R ⊕ Fin R → ℝ))
    have e : (fun ω (a : Fin R ⊕ Fin R) => Sum.elim (fun r => (w ω).wt_coefs.number j k r / √(c * τ j))
        (fun r => (w ω).wt_coefs.number j k' r / √(c * τ j)) a) = fun ω => ((√(c * τ j))⁻¹ • ContinuousLinearMap.id ℝ (Fin R ⊕ Fin R → ℝ))
        (fun i => (w ω).wt_coefs.number ((Sum.elim (fun r => (j, k, r)) fun r => (j, k', r) : Fin R ⊕ Fin R → ℕ × ℕ × Fin R) i).1
          ((Sum.elim (fun r => (j, k, r)) fun r => (j, k', r) : Fin R ⊕ Fin R → ℕ × ℕ × Fin R) i).2.1
          ((Sum.elim (fun r => (j, k, r)) fun r => (j, k', r) : Fin R ⊕ Fin R → ℕ × ℕ × Fin R) i).2.2) := by
      funext ω a
      rcases a with r | r <;> simp [div_eq_inv_mul]
    rw [e]; exact h2
  have hall := fun k hk k' hk' => hgeb (hgauss k hk k' hk') (hmean k hk) (hmean k' hk') (fun r s => by rw [hcov' k hk k hk r s, hρ1])
    (fun r s => by rw [hcov' k' hk' k' hk' r s, hρ1]) (hcov' k hk k' hk') hf hfe hfi
  obtain ⟨a1, a2⟩ := mean_msq (μ := μ) K (Finset.card_pos.mp (by omega)) (φ := fun k ω => f fun r => (w ω).wt_coefs.number j k r / √(c * τ j))
    (m := ∫ x, f x ∂stdGs R) (B := fun k k' => K0 * ρ k k' ^ 2 * ∫ x, f x ^ 2 ∂stdGs R) (fun k hk => (hall k hk k hk).1)
    (fun k hk => (hall k hk k hk).2.1) (fun k hk k' hk' => (hall k hk k' hk').2.2.1)
    (fun k hk k' hk' => by have := (abs_le.1 (hall k hk k' hk').2.2.2).2; linarith)
  refine ⟨a1, a2.trans ?_⟩
  have hK1 : (0:ℝ) < K.card := by exact_mod_cast (by omega : 0 < K.card)
  have hsum : ∀ i ∈ K, ∑ k ∈ K, ρ i k ^ 2 ≤
      (2 ^ (2 * (j : ℝ) * (1 / 2 - 1 / nm + g)) * C j / τ j) ^ 2 * ∑' n : ℤ, (1 + |(n : ℝ)|) ^ (2 * e j) := by
    intro i hi
    have h1 : ∀ k ∈ K, ρ i k ^ 2 ≤
        (2 ^ (2 * (j : ℝ) * (1 / 2 - 1 / nm + g)) * C j / τ j) ^ 2 * (1 + |(i : ℝ) * 2 ^ j - (k : ℝ) * 2 ^ j|) ^ (2 * e j) := by
      intro k hk
      rw [hρ]
      simp only
      rw [div_pow, div_pow, div_mul_eq_mul_div, neg_sq, mul_pow, mul_pow, mul_assoc (_ ^ 2) (C j ^ 2)]
      refine div_le_div_of_nonneg_right (mul_le_mul_of_nonneg_left ?_ (sq_nonneg _)) (sq_nonneg _)
      have h2 := hT j hj ((i : ℤ) * 2 ^ j - (k : ℤ) * 2 ^ j)
      have h4 := pow_le_pow_left₀ (abs_nonneg _) h2 2
      rw [sq_abs, mul_pow, ← Real.rpow_natCast (_ ^ _) 2, ← Real.rpow_mul (by positivity)] at h4
      push_cast at h4
      rw [mul_comm 2 (e j)]
      exact h4
    refine (sum_le_sum h1).trans ?_
    rw [← mul_sum]
    exact mul_le_mul_of_nonneg_left (sum_decay_le (he j hj) j i K) (sq_nonneg _)
  have h5 := sum_le_sum hsum
  rw [sum_const, nsmul_eq_mul] at h5
  have hS : 0 ≤ K0 * ∫ x, f x ^ 2 ∂stdGs R := mul_nonneg hK0 (integral_nonneg fun x => sq_nonneg _)
  have e6 : ∑ i ∈ K, ∑ k ∈ K, K0 * ρ i k ^ 2 * ∫ x, f x ^ 2 ∂stdGs R = K0 * (∫ x, f x ^ 2 ∂stdGs R) * ∑ i ∈ K, ∑ k ∈ K, ρ i k ^ 2 := by
    rw [mul_sum]
    refine sum_congr rfl fun i _ => ?_
    rw [mul_sum]
    exact sum_congr rfl fun k _ => by ring
  rw [e6, div_le_div_iff₀ (by positivity) hK1]
  have h6 := mul_le_mul_of_nonneg_right (mul_le_mul_of_nonneg_left h5 hS) hK1.le
  refine h6.trans (le_of_eq ?_)
  ring

end

end MFA
