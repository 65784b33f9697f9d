import Mathlib.Analysis.MeanInequalities
import Verif.Lemmas.LeaderMoments

/-!
# Moments of p-leaders

Powers of the weighted energy of a dyadic neighbourhood are bounded by sums of powers of its coefficients.
-/

namespace MFA

open Classical Finset

noncomputable section

theorem geom_Icc {t : ℝ} (h0 : 0 ≤ t) (h1 : t < 1) (j : ℕ) : ∑ j' ∈ Icc 1 j, t ^ (j - j') ≤ 1 / (1 - t) := by
  have e : ∑ j' ∈ Icc 1 j, t ^ (j - j') = ∑ i ∈ range j, t ^ i := by
    rw [← sum_range_reflect]
    refine sum_bij' (fun a _ => a - 1) (fun a _ => a + 1) ?_ ?_ ?_ ?_ ?_
    · intro a ha; have := mem_Icc.1 ha; rw [mem_range]; omega
    · intro a ha; have := mem_range.1 ha; rw [mem_Icc]; omega
    · intro a ha; have := mem_Icc.1 ha; omega
    · intro a ha; omega
    · intro a ha; have := mem_Icc.1 ha; congr 1; omega
  rw [e, one_div, ← tsum_geometric_of_lt_one h0 h1]
  exact (summable_geometric_of_lt_one h0 h1).sum_le_tsum _ fun i _ => by positivity

/-- Jensen's inequality with weights. -/
theorem weighted_power {ι : Type*} (s : Finset ι) (w f : ι → ℝ) (hw : ∀ i, 0 ≤ w i) (hf : ∀ i, 0 ≤ f i) {m W : ℝ} (hm : 1 ≤ m)
    (hW : ∑ i ∈ s, w i ≤ W) : (∑ i ∈ s, w i * f i) ^ m ≤ W ^ (m - 1) * ∑ i ∈ s, w i * f i ^ m := by
  have h0 : 0 ≤ ∑ i ∈ s, w i := sum_nonneg fun i _ => hw i
  have h1 : 0 ≤ ∑ i ∈ s, w i * f i ^ m := sum_nonneg fun i _ => mul_nonneg (hw i) (Real.rpow_nonneg (hf i) _)
  have h := Real.inner_le_weight_mul_Lp_of_nonneg s hm w f hw hf
  have h2 := Real.rpow_le_rpow (sum_nonneg fun i _ => mul_nonneg (hw i) (hf i)) h (by linarith : 0 ≤ m)
  rw [Real.mul_rpow (by positivity) (by positivity), ← Real.rpow_mul h0, ← Real.rpow_mul h1, inv_mul_cancel₀ (by linarith), Real.rpow_one,
    show (1 - m⁻¹) * m = m - 1 by field_simp] at h2
  refine h2.trans (mul_le_mul_of_nonneg_right ?_ h1)
  exact Real.rpow_le_rpow h0 hW (by linarith)

/-- Powers of the root of the energy of a neighbourhood. -/
theorem energy_power {j k : ℕ} {I : ℕ → Finset ℕ} (hI : ∀ j', 1 ≤ j' → j' ≤ j → I j' ⊆ Ico (k * 2 ^ (j - j')) ((k + 3) * 2 ^ (j - j')))
    (d : ℕ → ℕ → ℝ) {p θ : ℝ} (hp : 2 ≤ p) (h0 : 0 < θ) (h1 : θ < 1) :
    √((2:ℝ) ^ (-(j : ℝ)) * ∑ j' ∈ Icc 1 j, ∑ k' ∈ I j', 2 ^ j' * d j' k' ^ 2) ^ p ≤
      (3 / (1 - θ)) ^ (p / 2 - 1) * ∑ j' ∈ Icc 1 j, ∑ k' ∈ I j', (θ ^ (1 - p / 2) / 2) ^ (j - j') * |d j' k'| ^ p := by
  obtain ⟨S, hS⟩ : ∃ S : Finset (Σ _ : ℕ, ℕ), S = (Icc 1 j).sigma I := ⟨_, rfl⟩
  obtain ⟨w, hw⟩ : ∃ w : (Σ _ : ℕ, ℕ) → ℝ, w = fun i => (θ / 2) ^ (j - i.1) := ⟨_, rfl⟩
  obtain ⟨f, hf⟩ : ∃ f : (Σ _ : ℕ, ℕ) → ℝ, f = fun i => (θ⁻¹) ^ (j - i.1) * d i.1 i.2 ^ 2 := ⟨_, rfl⟩
  have hsum : (2:ℝ) ^ (-(j : ℝ)) * ∑ j' ∈ Icc 1 j, ∑ k' ∈ I j', 2 ^ j' * d j' k' ^ 2 = ∑ i ∈ S, w i * f i := by
    rw [hS, sum_sigma, mul_sum]
    refine sum_congr rfl fun j' hj' => ?_
    obtain ⟨a1, a2⟩ := mem_Icc.1 hj'
    rw [mul_sum]
    refine sum_congr rfl fun k' _ => ?_
    rw [hw, hf]
    simp only
    have e1 : (2:ℝ) ^ (-(j : ℝ)) * 2 ^ j' = (1 / 2) ^ (j - j') := by
      rw [Real.rpow_neg (by norm_num), Real.rpow_natCast]
      have : (2:ℝ) ^ j = 2 ^ j' * 2 ^ (j - j') := by rw [← pow_add]; congr 1; omega
      rw [this, one_div, inv_pow]; field_simp
    rw [← mul_assoc, e1, ← mul_assoc, ← mul_pow]
    congr 2
    field_simp
  have hW : ∑ i ∈ S, w i ≤ 3 / (1 - θ) := by
    rw [hS, sum_sigma]
    calc ∑ j' ∈ Icc 1 j, ∑ k' ∈ I j', w ⟨j', k'⟩ ≤ ∑ j' ∈ Icc 1 j, 3 * θ ^ (j - j') := by
          refine sum_le_sum fun j' hj' => ?_
          obtain ⟨a1, a2⟩ := mem_Icc.1 hj'
          rw [hw]
          simp only
          rw [sum_const, nsmul_eq_mul]
          have hc : (I j').card ≤ 3 * 2 ^ (j - j') := by
            refine (card_le_card (hI j' a1 a2)).trans ?_
            rw [Nat.card_Ico, add_mul]; omega
          have hc' : ((I j').card : ℝ) ≤ 3 * 2 ^ (j - j') := by exact_mod_cast hc
          calc ((I j').card : ℝ) * (θ / 2) ^ (j - j') ≤ (3 * 2 ^ (j - j')) * (θ / 2) ^ (j - j') :=
                mul_le_mul_of_nonneg_right hc' (by positivity)
            _ = 3 * θ ^ (j - j') := by rw [mul_assoc, ← mul_pow]; congr 2; field_simp
      _ ≤ 3 / (1 - θ) := by
          rw [← mul_sum]
          have := geom_Icc h0.le h1 j
          rw [div_eq_mul_one_div]
          linarith
  have hpos : 0 ≤ ∑ i ∈ S, w i * f i := sum_nonneg fun i _ => by rw [hw, hf]; positivity
  have key := weighted_power S w f (fun i => by rw [hw]; positivity) (fun i => by rw [hf]; positivity) (m := p / 2) (by linarith) hW
  rw [hsum, Real.sqrt_eq_rpow, ← Real.rpow_mul hpos, show 1 / 2 * p = p / 2 by ring]
  refine key.trans (le_of_eq ?_)
  congr 1
  rw [hS, sum_sigma]
  refine sum_congr rfl fun j' _ => sum_congr rfl fun k' _ => ?_
  rw [hw, hf]
  simp only
  rw [Real.mul_rpow (by positivity) (by positivity), ← mul_assoc]
  congr 1
  · rw [← Real.rpow_natCast, ← Real.rpow_natCast, ← Real.rpow_natCast, ← Real.rpow_mul (by positivity), mul_comm _ (p / 2),
      Real.rpow_mul (by positivity), ← Real.mul_rpow (by positivity) (by positivity)]
    congr 1
    rw [Real.rpow_sub h0, Real.rpow_one, Real.inv_rpow h0.le]
    field_simp
  · rw [← sq_abs, ← Real.rpow_natCast, ← Real.rpow_mul (abs_nonneg _)]
    congr 1
    push_cast; ring

/-- The root of the energy of a neighbourhood is at least the size of each of its coefficients, weighted. -/
theorem energy_ge {j : ℕ} {I : ℕ → Finset ℕ} (d : ℕ → ℕ → ℝ) {j' k' : ℕ} (h1 : 1 ≤ j') (h2 : j' ≤ j) (hk : k' ∈ I j') :
    √((1 / 2) ^ (j - j')) * |d j' k'| ≤ √((2:ℝ) ^ (-(j : ℝ)) * ∑ j' ∈ Icc 1 j, ∑ k' ∈ I j', 2 ^ j' * d j' k' ^ 2) := by
  rw [← Real.sqrt_sq_eq_abs, ← Real.sqrt_mul (by positivity)]
  apply Real.sqrt_le_sqrt
  have e1 : (2:ℝ) ^ (-(j : ℝ)) * 2 ^ j' = (1 / 2) ^ (j - j') := by
    rw [Real.rpow_neg (by norm_num), Real.rpow_natCast]
    have : (2:ℝ) ^ j = 2 ^ j' * 2 ^ (j - j') := by rw [← pow_add]; congr 1; omega
    rw [this, one_div, inv_pow]; field_simp
  rw [← e1, mul_assoc]
  apply mul_le_mul_of_nonneg_left _ (by positivity)
  have h5 : (2:ℝ) ^ j' * d j' k' ^ 2 ≤ ∑ k' ∈ I j', 2 ^ j' * d j' k' ^ 2 :=
    single_le_sum (f := fun k' => (2:ℝ) ^ j' * d j' k' ^ 2) (fun _ _ => by positivity) hk
  exact h5.trans (single_le_sum (f := fun j' => ∑ k' ∈ I j', (2:ℝ) ^ j' * d j' k' ^ 2) (fun _ _ => sum_nonneg fun _ _ => by positivity)
    (mem_Icc.2 ⟨h1, h2⟩))

/-- Multiplying by a factor in `[c₀, 1]` keeps the leaders tame. -/
theorem tame_scale {A : Finset ℕ} {L : ℕ → ℝ} {p s K σ c c0 : ℝ} (hc0 : 0 < c0) (hc : c0 ≤ c) (hc1 : c ≤ 1) (hp : 0 ≤ p) (hs : 0 ≤ s)
    (hσ : 0 < σ) (hK : 0 ≤ K) {xs ys : List ℝ} (e2 : ∀ f : ℝ → ℝ, (xs.map f).sum = ∑ k ∈ A, f (L k)) (e3 : xs.length = A.card)
    (f2 : ∀ f : ℝ → ℝ, (ys.map f).sum = ∑ k ∈ A, f (L k * c)) (f3 : ys.length = A.card) (f4 : ∀ y ∈ ys, ∃ k ∈ A, y = L k * c)
    (hL : ∀ k ∈ A, 0 < L k) (h : Tame p s K σ xs) : Tame p s (K * max 1 (c0 ^ (-s))) σ ys := by
  obtain ⟨h1, -, h3, h4⟩ := h
  have hcp : 0 < c := hc0.trans_le hc
  have hA : (0:ℝ) < A.card := by
    rw [← e3]; exact_mod_cast List.length_pos_iff.2 h1
  have hmean : ∀ e : ℝ, tmean e 0 (σ, ys) = c ^ e * tmean e 0 (σ, xs) := by
    intro e
    unfold tmean
    simp only
    rw [f2, e2, f3, e3, mul_div_assoc', mul_sum]
    congr 1
    refine sum_congr rfl fun k hk => ?_
    simp only [testF, pow_zero, mul_one]
    rw [abs_of_pos (div_pos (mul_pos (hL k hk) hcp) hσ), abs_of_pos (div_pos (hL k hk) hσ), mul_comm (L k), mul_div_assoc,
      Real.mul_rpow hcp.le (div_pos (hL k hk) hσ).le]
  have hnn : ∀ e : ℝ, 0 ≤ tmean e 0 (σ, xs) := by
    intro e
    unfold tmean
    simp only
    rw [e2]
    refine div_nonneg (sum_nonneg fun k _ => ?_) (Nat.cast_nonneg _)
    simp only [testF, pow_zero, mul_one]
    positivity
  refine ⟨?_, ?_, ?_, ?_⟩
  · rintro rfl
    rw [List.length_nil] at f3
    rw [← f3] at hA
    simp at hA
  · intro y hy
    obtain ⟨k, hk, rfl⟩ := f4 y hy
    exact (mul_pos (hL k hk) hcp).ne'
  · rw [hmean]
    have h5 : c ^ p ≤ 1 := Real.rpow_le_one hcp.le hc1 hp
    calc c ^ p * tmean p 0 (σ, xs) ≤ 1 * K := mul_le_mul h5 h3 (hnn p) zero_le_one
      _ ≤ K * max 1 (c0 ^ (-s)) := by rw [one_mul]; exact le_mul_of_one_le_right hK (le_max_left _ _)
  · rw [hmean, mul_comm]
    have h5 : c ^ (-s) ≤ c0 ^ (-s) := Real.rpow_le_rpow_of_nonpos hc0 hc (by linarith)
    exact mul_le_mul h4 (h5.trans (le_max_right _ _)) (by positivity) hK

end

end MFA
