import Verif.Lemmas.Typical
import Mathlib.Algebra.Order.Chebyshev

/-! Averages over all but a few of the terms. -/

namespace MFA

open Finset

noncomputable section

/-- Leaving out few terms, whichever they are, changes an average by little when the average of the squares is under control. -/
theorem subset_mean (a b : ℝ) {ε : ℝ} (hε : 0 < ε) : ∃ η : ℝ, 0 < η ∧ ∃ θ : ℝ, 0 < θ ∧ θ ≤ 1 / 2 ∧ ∀ (I K : Finset ℕ) (f : ℕ → ℝ), K ⊆ I → I.Nonempty →
    |(∑ k ∈ I, f k) / I.card - a| < η → |(∑ k ∈ I, f k ^ 2) / I.card - b| < η → ((I \ K).card : ℝ) ≤ θ * I.card →
    |(∑ k ∈ K, f k) / K.card - a| < ε := by
  obtain ⟨θ, hθ⟩ : ∃ θ, θ = min (1 / 2) (min ((ε / 8) ^ 2 / (|b| + 1)) ((ε / 8) / (|a| + 1))) := ⟨_, rfl⟩
  have h1 : θ ≤ 1 / 2 := by rw [hθ]; exact min_le_left _ _
  have h2 : θ * (|b| + 1) ≤ (ε / 8) ^ 2 := by
    rw [← le_div_iff₀ (by positivity), hθ]; exact (min_le_right _ _).trans (min_le_left _ _)
  have h3 : θ * (|a| + 1) ≤ ε / 8 := by
    rw [← le_div_iff₀ (by positivity), hθ]; exact (min_le_right _ _).trans (min_le_right _ _)
  have h0 : 0 < θ := by rw [hθ]; positivity
  refine ⟨min 1 (ε / 8), by positivity, θ, h0, h1, fun I K f hKI hI hm hs hd => ?_⟩
  have hn : (0:ℝ) < I.card := by exact_mod_cast card_pos.2 hI
  have hcard : ((I \ K).card : ℝ) + K.card = I.card := by exact_mod_cast card_sdiff_add_card_eq_card hKI
  have hsum : ∑ k ∈ I \ K, f k + ∑ k ∈ K, f k = ∑ k ∈ I, f k := sum_sdiff hKI
  have hk : (I.card : ℝ) / 2 ≤ K.card := by
    have := mul_le_mul_of_nonneg_right h1 hn.le
    linarith
  have hk0 : (0:ℝ) < K.card := by linarith
  have hm' : |∑ k ∈ I, f k - a * I.card| ≤ ε / 8 * I.card := by
    have h := hm.le.trans (min_le_right _ _)
    rw [show (∑ k ∈ I, f k) / I.card - a = (∑ k ∈ I, f k - a * I.card) / I.card by field_simp, abs_div, abs_of_pos hn, div_le_iff₀ hn] at h
    exact h
  have hs' : ∑ k ∈ I, f k ^ 2 ≤ (|b| + 1) * I.card := by
    have h := (abs_lt.1 (hs.trans_le (min_le_left _ _))).2
    have : (∑ k ∈ I, f k ^ 2) / I.card ≤ |b| + 1 := by have := le_abs_self b; linarith
    rwa [div_le_iff₀ hn] at this
  have hD : |∑ k ∈ I \ K, f k| ≤ ε / 8 * I.card := by
    refine abs_le_of_sq_le_sq ?_ (by positivity)
    have hsub : ∑ k ∈ I \ K, f k ^ 2 ≤ ∑ k ∈ I, f k ^ 2 := sum_le_sum_of_subset_of_nonneg sdiff_subset fun k _ _ => sq_nonneg _
    have hs0 : 0 ≤ ∑ k ∈ I \ K, f k ^ 2 := sum_nonneg fun k _ => sq_nonneg _
    calc (∑ k ∈ I \ K, f k) ^ 2 ≤ (I \ K).card * ∑ k ∈ I \ K, f k ^ 2 := sq_sum_le_card_mul_sum_sq
      _ ≤ (θ * I.card) * ((|b| + 1) * I.card) := mul_le_mul hd (hsub.trans hs') hs0 (by positivity)
      _ = θ * (|b| + 1) * (I.card : ℝ) ^ 2 := by ring
      _ ≤ (ε / 8) ^ 2 * (I.card : ℝ) ^ 2 := mul_le_mul_of_nonneg_right h2 (by positivity)
      _ = (ε / 8 * I.card) ^ 2 := by ring
  have hA : |a * ((I \ K).card : ℝ)| ≤ ε / 8 * I.card := by
    rw [abs_mul, abs_of_nonneg (by positivity : (0:ℝ) ≤ ((I \ K).card : ℝ))]
    calc |a| * ((I \ K).card : ℝ) ≤ (|a| + 1) * (θ * I.card) := mul_le_mul (by linarith) hd (by positivity) (by positivity)
      _ = θ * (|a| + 1) * I.card := by ring
      _ ≤ ε / 8 * I.card := mul_le_mul_of_nonneg_right h3 hn.le
  have e : (∑ k ∈ K, f k) / K.card - a = ((∑ k ∈ I, f k - a * I.card) - ∑ k ∈ I \ K, f k + a * ((I \ K).card : ℝ)) / K.card := by
    rw [← hsum, ← hcard]
    field_simp
    ring
  rw [e, abs_div, abs_of_pos hk0, div_lt_iff₀ hk0]
  have t1 := abs_add_le ((∑ k ∈ I, f k - a * I.card) - ∑ k ∈ I \ K, f k) (a * ((I \ K).card : ℝ))
  have t2 := abs_sub (∑ k ∈ I, f k - a * I.card) (∑ k ∈ I \ K, f k)
  have t3 : ε * ((I.card : ℝ) / 2) ≤ ε * K.card := mul_le_mul_of_nonneg_left hk hε.le
  have t4 : 0 < ε * I.card := by positivity
  linarith

theorem testF_sq_eq (q : ℝ) (n : ℕ) (t : ℝ) : testF q n t ^ 2 = testF (2 * q) (2 * n) t := by
  unfold testF
  rw [mul_pow, ← pow_mul, mul_comm n 2, mul_comm 2 q, Real.rpow_mul (abs_nonneg t), Real.rpow_two]

theorem subset_means (F : List (ℝ × ℕ)) {ε : ℝ} (hε : 0 < ε) : ∃ η : ℝ, 0 < η ∧ ∃ θ : ℝ, 0 < θ ∧ θ ≤ 1 / 2 ∧
    ∀ (I K : Finset ℕ) (d : ℕ → ℝ), K ⊆ I → I.Nonempty →
    (∀ p ∈ F, |(∑ k ∈ I, testF p.1 p.2 (d k)) / I.card - normalMoment p.1 p.2| < η) →
    (∀ p ∈ F, |(∑ k ∈ I, testF (2 * p.1) (2 * p.2) (d k)) / I.card - normalMoment (2 * p.1) (2 * p.2)| < η) →
    ((I \ K).card : ℝ) ≤ θ * I.card →
    ∀ p ∈ F, |(∑ k ∈ K, testF p.1 p.2 (d k)) / K.card - normalMoment p.1 p.2| < ε := by
  induction F with
  | nil => exact ⟨1, one_pos, 1 / 2, by norm_num, le_rfl, fun _ _ _ _ _ _ _ _ p hp => by cases hp⟩
  | cons p F ih =>
    obtain ⟨η1, hη1, θ1, hθ1, hh1, h1⟩ := ih
    obtain ⟨η2, hη2, θ2, hθ2, hh2, h2⟩ := subset_mean (normalMoment p.1 p.2) (normalMoment (2 * p.1) (2 * p.2)) hε
    refine ⟨min η1 η2, lt_min hη1 hη2, min θ1 θ2, lt_min hθ1 hθ2, (min_le_left _ _).trans hh1, fun I K d hK hI e1 e2 e3 p' hp' => ?_⟩
    rcases List.mem_cons.1 hp' with rfl | hp'
    · refine h2 I K _ hK hI ((e1 _ (by simp)).trans_le (min_le_right _ _)) ?_ (e3.trans (mul_le_mul_of_nonneg_right (min_le_right _ _) (by positivity)))
      simp only [testF_sq_eq]
      exact (e2 _ (by simp)).trans_le (min_le_right _ _)
    · exact h1 I K d hK hI (fun p'' h'' => (e1 _ (List.mem_cons_of_mem _ h'')).trans_le (min_le_left _ _))
        (fun p'' h'' => (e2 _ (List.mem_cons_of_mem _ h'')).trans_le (min_le_left _ _))
        (e3.trans (mul_le_mul_of_nonneg_right (min_le_left _ _) (by positivity))) p' hp'

end

end MFA
