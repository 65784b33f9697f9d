import Verif.Lemmas.IdealBank
import Mathlib.Analysis.Analytic.Binomial
import Mathlib.LinearAlgebra.Finsupp.LinearCombination

/-! Decay of the double detail of a power of the distance: two filters with `M` vanishing moments gain `2M` orders. -/

namespace MFA

open Finset

noncomputable section

/-- Taylor expansion of a power at 1. -/
theorem rpow_taylor (a : ℝ) (n : ℕ) : ∃ (c : ℕ → ℝ) (δ C : ℝ), 0 < δ ∧ 0 ≤ C ∧ ∀ u : ℝ, |u| < δ →
    |(|1 + u|) ^ a - ∑ i ∈ range n, c i * u ^ i| ≤ C * |u| ^ n := by
  have h := (Real.one_add_rpow_hasFPowerSeriesAt_zero (a := a)).isBigO_sub_partialSum_pow n
  obtain ⟨C, hC⟩ := h.bound
  obtain ⟨δ, hδ, hb⟩ := Metric.eventually_nhds_iff.1 hC
  refine ⟨fun i => (binomialSeries ℝ a).coeff i, min δ 1, |C|, by positivity, abs_nonneg _, fun u hu => ?_⟩
  have h1 := hb (y := u) (by rw [dist_zero_right]; exact hu.trans_le (min_le_left _ _))
  have hpos : 0 < 1 + u := by
    have := (abs_lt.1 (hu.trans_le (min_le_right _ _))).1; linarith
  rw [abs_of_pos hpos]
  have e : (binomialSeries ℝ a).partialSum n u = ∑ i ∈ range n, (binomialSeries ℝ a).coeff i * u ^ i := by
    rw [FormalMultilinearSeries.partialSum]
    refine sum_congr rfl fun i _ => ?_
    rw [FormalMultilinearSeries.apply_eq_pow_smul_coeff, smul_eq_mul, mul_comm]
  rw [e, zero_add, Real.norm_eq_abs, Real.norm_eq_abs, Real.norm_eq_abs, abs_pow, abs_abs] at h1
  exact h1.trans (mul_le_mul_of_nonneg_right (le_abs_self C) (by positivity))

/-- The detail is a finite combination of samples. -/
theorem idealDetail_finsupp (wt : Wavelet) {j : ℕ} (hj : 1 ≤ j) : ∃ b : ℤ →₀ ℝ, ∀ (x : ℤ → ℝ) (k : ℤ),
    idealDetail wt x j k = b.sum fun i c => c * x (i + k * 2 ^ j) := by
  have hA : ∀ (i : ℕ) (k : ℤ), ∃ b : ℤ →₀ ℝ, ∀ x : ℤ → ℝ, idealApprox wt.dec_lo x i k = Finsupp.linearCombination ℝ x b := by
    intro i
    induction i with
    | zero => intro k; exact ⟨Finsupp.single k 1, fun x => by simp [idealApprox]⟩
    | succ i ih =>
      intro k
      choose b hb using ih
      refine ⟨∑ m ∈ range wt.dec_lo.length, wt.dec_lo.getD m 0 • b (2 * k + 1 + ((wt.dec_lo.length - 1) / 2 : ℕ) - m), fun x => ?_⟩
      rw [idealApprox, downFilter, map_sum]
      exact sum_congr rfl fun m _ => by rw [map_smul, hb, smul_eq_mul]
  choose b hb using hA (j - 1)
  refine ⟨-∑ m ∈ range wt.dec_hi.length, wt.dec_hi.getD m 0 • b (2 * 0 + 1 + ((wt.dec_hi.length - 1) / 2 : ℕ) - m), fun x k => ?_⟩
  have h0 := idealDetail_shift wt x hj k 0
  rw [zero_add] at h0
  rw [← h0]
  have : ∀ y : ℤ → ℝ, idealDetail wt y j 0 = Finsupp.linearCombination ℝ y
      (-∑ m ∈ range wt.dec_hi.length, wt.dec_hi.getD m 0 • b (2 * 0 + 1 + ((wt.dec_hi.length - 1) / 2 : ℕ) - m)) := by
    intro y
    rw [idealDetail, downFilter, map_neg, map_sum]
    congr 1
    exact sum_congr rfl fun m _ => by rw [map_smul, hb, smul_eq_mul]
  rw [this, Finsupp.linearCombination_apply]
  rfl

/-- Moments that vanish for both combinations. -/
theorem moments_vanish {b b' : ℤ →₀ ℝ} {M : ℕ} (hb : ∀ i < M, (b.sum fun s c => c * (s : ℝ) ^ i) = 0)
    (hb' : ∀ i < M, (b'.sum fun s c => c * (s : ℝ) ^ i) = 0) {i : ℕ} (hi : i < 2 * M) :
    (b.sum fun s c => c * b'.sum fun t d => d * ((s : ℝ) - t) ^ i) = 0 := by
  have e : ∀ s : ℤ, (b'.sum fun t d => d * ((s : ℝ) - t) ^ i) =
      ∑ m ∈ range (i + 1), (s : ℝ) ^ m * ((-1) ^ (i - m) * (i.choose m : ℝ) * b'.sum fun t d => d * (t : ℝ) ^ (i - m)) := by
    intro s
    simp only [Finsupp.sum, mul_sum]
    rw [sum_comm]
    refine sum_congr rfl fun t _ => ?_
    rw [sub_eq_add_neg, add_pow, mul_sum]
    exact sum_congr rfl fun m _ => by rw [neg_pow]; ring
  simp only [e]
  simp only [Finsupp.sum, mul_sum] at hb hb' ⊢
  rw [sum_comm]
  refine sum_eq_zero fun m hm => ?_
  rw [mem_range] at hm
  rw [sum_comm]
  by_cases hmM : m < M
  · refine sum_eq_zero fun t _ => ?_
    have := hb m hmM
    have e2 : ∀ s ∈ b.support, b s * ((s:ℝ) ^ m * ((-1) ^ (i - m) * (i.choose m : ℝ) * (b' t * (t:ℝ) ^ (i - m)))) =
      (b s * (s:ℝ) ^ m) * ((-1) ^ (i - m) * (i.choose m : ℝ) * (b' t * (t:ℝ) ^ (i - m))) := fun s _ => by ring
    rw [sum_congr rfl e2, ← sum_mul, this, zero_mul]
  · rw [sum_comm]
    refine sum_eq_zero fun s _ => ?_
    have := hb' (i - m) (by omega)
    have e2 : ∀ t ∈ b'.support, b s * ((s:ℝ) ^ m * ((-1) ^ (i - m) * (i.choose m : ℝ) * (b' t * (t:ℝ) ^ (i - m)))) =
      b s * ((s:ℝ) ^ m * ((-1) ^ (i - m) * (i.choose m : ℝ))) * (b' t * (t:ℝ) ^ (i - m)) := fun t _ => by ring
    rw [sum_congr rfl e2, ← mul_sum, this, mul_zero]

/-- Decay far away. -/
theorem double_decay {b b' : ℤ →₀ ℝ} {M : ℕ} (hb : ∀ i < M, (b.sum fun s c => c * (s : ℝ) ^ i) = 0)
    (hb' : ∀ i < M, (b'.sum fun s c => c * (s : ℝ) ^ i) = 0) (a : ℝ) : ∃ (C K : ℝ), 0 ≤ C ∧ 1 ≤ K ∧ ∀ D : ℝ, K ≤ |D| →
    |b.sum fun s c => c * b'.sum fun t d => d * |D + (s - t)| ^ a| ≤ C * |D| ^ (a - 2 * M) := by
  obtain ⟨c, δ, C, hδ, hC, hT⟩ := rpow_taylor a (2 * M)
  obtain ⟨B, hB⟩ : ∃ B : ℝ, ∀ s ∈ b.support, ∀ t ∈ b'.support, |(s : ℝ) - t| ≤ B := by
    refine ⟨∑ s ∈ b.support, ∑ t ∈ b'.support, |(s : ℝ) - t|, fun s hs t ht => ?_⟩
    exact (single_le_sum (f := fun t : ℤ => |(s : ℝ) - t|) (fun _ _ => abs_nonneg _) ht).trans
      (single_le_sum (f := fun s : ℤ => ∑ t ∈ b'.support, |(s : ℝ) - t|) (fun _ _ => sum_nonneg fun _ _ => abs_nonneg _) hs)
  refine ⟨∑ s ∈ b.support, |b s| * ∑ t ∈ b'.support, |b' t| * (C * |(s : ℝ) - t| ^ (2 * M)), max 1 ((|B| + 1) / δ),
    sum_nonneg fun _ _ => by positivity, le_max_left _ _, fun D hD => ?_⟩
  have hD1 : 1 ≤ |D| := (le_max_left _ _).trans hD
  have hD0 : 0 < |D| := by linarith
  have hDne : D ≠ 0 := abs_pos.1 hD0
  have hDδ : |B| + 1 ≤ |D| * δ := by
    rw [← div_le_iff₀ hδ]; exact (le_max_right _ _).trans hD
  -- the polynomial part vanishes
  have hz : (b.sum fun s e => e * b'.sum fun t d => d * (|D| ^ a * ∑ i ∈ range (2 * M), c i * (((s : ℝ) - t) / D) ^ i)) = 0 := by
    have e : (b.sum fun s e => e * b'.sum fun t d => d * (|D| ^ a * ∑ i ∈ range (2 * M), c i * (((s : ℝ) - t) / D) ^ i)) =
        ∑ i ∈ range (2 * M), |D| ^ a * c i / D ^ i * (b.sum fun s e => e * b'.sum fun t d => d * ((s : ℝ) - t) ^ i) := by
      simp only [Finsupp.sum, mul_sum]
      symm
      rw [sum_comm]
      refine sum_congr rfl fun s _ => ?_
      rw [sum_comm]
      refine sum_congr rfl fun t _ => sum_congr rfl fun i _ => ?_
      rw [div_pow]; ring
    rw [e]
    exact sum_eq_zero fun i hi => by rw [moments_vanish hb hb' (mem_range.1 hi), mul_zero]
  rw [← sub_zero (b.sum _), ← hz]
  simp only [Finsupp.sum]
  rw [← sum_sub_distrib, sum_mul]
  refine (abs_sum_le_sum_abs _ _).trans (sum_le_sum fun s hs => ?_)
  rw [← mul_sub, abs_mul, mul_assoc]
  refine mul_le_mul_of_nonneg_left ?_ (abs_nonneg _)
  rw [← sum_sub_distrib, sum_mul]
  refine (abs_sum_le_sum_abs _ _).trans (sum_le_sum fun t ht => ?_)
  rw [← mul_sub, abs_mul, mul_assoc]
  refine mul_le_mul_of_nonneg_left ?_ (abs_nonneg _)
  have hu : |((s : ℝ) - t) / D| < δ := by
    rw [abs_div, div_lt_iff₀ hD0]
    have := hB s hs t ht
    have := le_abs_self B
    nlinarith
  have e1 : |D + ((s : ℝ) - t)| ^ a = |D| ^ a * |1 + ((s : ℝ) - t) / D| ^ a := by
    rw [← Real.mul_rpow (abs_nonneg _) (abs_nonneg _), ← abs_mul]
    congr 2; field_simp
  rw [e1, ← mul_sub, abs_mul, abs_of_nonneg (by positivity : 0 ≤ |D| ^ a)]
  refine (mul_le_mul_of_nonneg_left (hT _ hu) (by positivity)).trans (le_of_eq ?_)
  rw [abs_div, div_pow, Real.rpow_sub hD0]
  have : |D| ^ (2 * (M : ℝ)) = |D| ^ (2 * M) := by rw [← Real.rpow_natCast]; push_cast; rfl
  rw [this]; ring

/-- From decay far away to decay everywhere, on the integers. -/
theorem decay_everywhere {f : ℤ → ℝ} {e C K : ℝ} (he : e ≤ 0) (hC : 0 ≤ C) (hK : 1 ≤ K) (h : ∀ n : ℤ, K ≤ |(n : ℝ)| → |f n| ≤ C * |(n : ℝ)| ^ e) :
    ∃ C', 0 ≤ C' ∧ ∀ n : ℤ, |f n| ≤ C' * (1 + |(n : ℝ)|) ^ e := by
  let S := Icc (-⌈K⌉) ⌈K⌉
  have hpos : ∀ n : ℤ, 0 < (1 + |(n : ℝ)|) ^ e := fun n => Real.rpow_pos_of_pos (by positivity) _
  have hS : 0 ≤ ∑ n ∈ S, |f n| / (1 + |(n : ℝ)|) ^ e := sum_nonneg fun n _ => div_nonneg (abs_nonneg _) (hpos n).le
  refine ⟨C * 2 ^ (-e) + ∑ n ∈ S, |f n| / (1 + |(n : ℝ)|) ^ e, by positivity, fun n => ?_⟩
  by_cases hn : K ≤ |(n : ℝ)|
  · refine (h n hn).trans ?_
    have h1 : |(n : ℝ)| ^ e ≤ 2 ^ (-e) * (1 + |(n : ℝ)|) ^ e := by
      rw [Real.rpow_neg (by norm_num), ← Real.inv_rpow (by norm_num), ← Real.mul_rpow (by norm_num) (by positivity)]
      exact Real.rpow_le_rpow_of_nonpos (by positivity) (by linarith) he
    calc C * |(n : ℝ)| ^ e ≤ C * (2 ^ (-e) * (1 + |(n : ℝ)|) ^ e) := mul_le_mul_of_nonneg_left h1 hC
      _ ≤ _ := by
        rw [← mul_assoc]
        exact mul_le_mul_of_nonneg_right (le_add_of_nonneg_right hS) (hpos n).le
  · have hmem : n ∈ S := by
      rw [not_le] at hn
      obtain ⟨h1, h2⟩ := abs_lt.1 hn
      rw [mem_Icc]
      have h3 := Int.le_ceil K
      constructor
      · have : (-(⌈K⌉ : ℤ) : ℝ) < n := by push_cast; linarith
        have := (by exact_mod_cast this : -⌈K⌉ < n); omega
      · have : (n : ℝ) < (⌈K⌉ : ℤ) := by linarith
        have := (by exact_mod_cast this : n < ⌈K⌉); omega
    rw [← div_le_iff₀ (hpos n)]
    refine (single_le_sum (f := fun n : ℤ => |f n| / (1 + |(n : ℝ)|) ^ e) (fun n _ => div_nonneg (abs_nonneg _) (hpos n).le) hmem).trans ?_
    exact le_add_of_nonneg_left (by positivity)

/-- The double detail of `|s - t|^a` decays like the distance of the positions to the power `a - 2M`. -/
theorem detail_decay {wt : Wavelet} {M : ℕ} (hM : VanishingMoments wt.dec_hi M) {a : ℝ} (ha : a ≤ 2 * M) {j j' : ℕ} (hj : 1 ≤ j) (hj' : 1 ≤ j') :
    ∃ T : ℤ → ℝ, (∃ C, 0 ≤ C ∧ ∀ n : ℤ, |T n| ≤ C * (1 + |(n : ℝ)|) ^ (a - 2 * M)) ∧
      ∀ k k' : ℤ, idealDetail wt (fun s => idealDetail wt (fun t => |((s - t : ℤ) : ℝ)| ^ a) j' k') j k = T (k * 2 ^ j - k' * 2 ^ j') := by
  obtain ⟨b, hb⟩ := idealDetail_finsupp wt hj
  obtain ⟨b', hb'⟩ := idealDetail_finsupp wt hj'
  have mom : ∀ {b : ℤ →₀ ℝ} {j : ℕ}, (∀ (x : ℤ → ℝ) (k : ℤ), idealDetail wt x j k = b.sum fun i c => c * x (i + k * 2 ^ j)) →
      ∀ i < M, (b.sum fun s c => c * (s : ℝ) ^ i) = 0 := by
    intro b j h i hi
    have h1 := idealDetail_vanish wt hM (Polynomial.X ^ i) (by rw [Polynomial.natDegree_X_pow]; exact hi) j 0
    rw [h] at h1
    simpa using h1
  obtain ⟨C, K, hC, hK, hd⟩ := double_decay (mom hb) (mom hb') a
  refine ⟨fun n => b.sum fun s c => c * b'.sum fun t d => d * |(n : ℝ) + (s - t)| ^ a,
    decay_everywhere (by linarith) hC hK fun n hn => hd n hn, fun k k' => ?_⟩
  rw [hb]
  simp only [hb']
  congr 1; funext s c; congr 2; funext t d; congr 3
  push_cast; ring

end

end MFA
