import Verif.Lemmas.Tame
import Verif.Spec.Tree

/-!
# Moments of leaders

Deterministic bounds: when the coefficients of all the scales up to `J` are typical, the positive and negative moments of the leaders,
divided by the standard deviation of the coefficients of their scale, are bounded, independently of the scale.
-/

namespace MFA

open Classical Finset

noncomputable section

/-- What is used of the leaders `L k`, `k ∈ A`, of scale `j` computed from the coefficients `d j' k'`. -/
structure LeaderLike (N F j : ℕ) (d : ℕ → ℕ → ℝ) (A : Finset ℕ) (L : ℕ → ℝ) (C ρ κ p : ℝ) : Prop where
  sub : A ⊆ range (N / 2 ^ j - 2)
  pos : ∀ k ∈ A, 0 < L k
  inner : ∀ k ∈ interior N F j, k < N / 2 ^ j - 2 → k ∈ A
  above : ∀ k ∈ interior N F j, k ∈ A → |d j k| ≤ L k
  low : ∀ k ∈ A, ∃ j' k', 1 ≤ j' ∧ j' ≤ j ∧ k' ∈ interior N F j' ∧ κ * |d j' k'| ≤ L k
  up : ∀ k ∈ A, L k ^ p ≤ C * ∑ j' ∈ Icc 1 j, ∑ k' ∈ (interior N F j').filter (fun k' => InNbhd j k j' k'), ρ ^ (j - j') * |d j' k'| ^ p

theorem nbhd_count (A : Finset ℕ) (j j' k' : ℕ) : (A.filter fun k => InNbhd j k j' k').card ≤ 3 := by
  have : (A.filter fun k => InNbhd j k j' k') ⊆ Icc (k' / 2 ^ (j - j') - 2) (k' / 2 ^ (j - j')) := by
    intro k hk
    obtain ⟨-, -, -, h3, h4⟩ := mem_filter.1 hk
    rw [mem_Icc]; omega
  refine (card_le_card this).trans ?_
  rw [Nat.card_Icc]; omega

variable {N F j : ℕ} {d : ℕ → ℕ → ℝ} {A : Finset ℕ} {L : ℕ → ℝ} {C ρ κ p : ℝ}

theorem LeaderLike.card (h : LeaderLike N F j d A L C ρ κ p) (hj : 1 ≤ j) : N / 2 ^ j ≤ A.card + 2 * F + 2 := by
  have h1 := interior_card_ge N F j hj
  have h2 : (interior N F j).card ≤ A.card + 2 := by
    have h3 : interior N F j ⊆ A ∪ Ico (N / 2 ^ j - 2) (N / 2 ^ j) := by
      intro k hk
      have hlt : k < N / 2 ^ j := mem_range.1 (mem_filter.1 hk).1
      rw [mem_union, mem_Ico]
      by_cases h4 : k < N / 2 ^ j - 2
      · exact Or.inl (h.inner k hk h4)
      · exact Or.inr ⟨by omega, hlt⟩
    refine (card_le_card h3).trans ((card_union_le _ _).trans ?_)
    rw [Nat.card_Ico]; omega
  omega

/-- Sums of powers of the leaders are bounded by sums of powers of the coefficients of all the finer scales. -/
theorem LeaderLike.sum_up (h : LeaderLike N F j d A L C ρ κ p) (hC : 0 ≤ C) (hρ : 0 ≤ ρ) :
    ∑ k ∈ A, L k ^ p ≤ 3 * C * ∑ j' ∈ Icc 1 j, ρ ^ (j - j') * ∑ k' ∈ interior N F j', |d j' k'| ^ p := by
  calc ∑ k ∈ A, L k ^ p ≤ ∑ k ∈ A, C * ∑ j' ∈ Icc 1 j, ∑ k' ∈ interior N F j', if InNbhd j k j' k' then ρ ^ (j - j') * |d j' k'| ^ p else 0 := by
        refine sum_le_sum fun k hk => (h.up k hk).trans (le_of_eq ?_)
        congr 1
        exact sum_congr rfl fun j' _ => by rw [sum_filter]
    _ = C * ∑ j' ∈ Icc 1 j, ∑ k' ∈ interior N F j', ((A.filter fun k => InNbhd j k j' k').card : ℝ) * (ρ ^ (j - j') * |d j' k'| ^ p) := by
        rw [← mul_sum, sum_comm]
        congr 1
        refine sum_congr rfl fun j' _ => ?_
        rw [sum_comm]
        refine sum_congr rfl fun k' _ => ?_
        rw [← sum_filter, sum_const, nsmul_eq_mul]
    _ ≤ C * ∑ j' ∈ Icc 1 j, ∑ k' ∈ interior N F j', 3 * (ρ ^ (j - j') * |d j' k'| ^ p) := by
        refine mul_le_mul_of_nonneg_left (sum_le_sum fun j' _ => sum_le_sum fun k' _ => ?_) hC
        refine mul_le_mul_of_nonneg_right ?_ (by positivity)
        exact_mod_cast nbhd_count A j j' k'
    _ = _ := by
        simp only [← mul_sum]; ring

/-- **The moments of the leaders are bounded.** -/
theorem LeaderLike.moments (h : LeaderLike N F j d A L C ρ κ p) (hj : 1 ≤ j) {σ : ℕ → ℝ} (hσ : ∀ j', 1 ≤ j' → j' ≤ j → 0 < σ j')
    (hC : 0 ≤ C) (hρ : 0 ≤ ρ) (hp : 0 < p) {E H M : ℝ} (hE : 0 < E) (hM : 0 ≤ M)
    (hconv : ρ * (2:ℝ) ^ (1 - H * p) < 1)
    (hratio : ∀ j', 1 ≤ j' → j' ≤ j → σ j' ≤ σ j * (E * (2:ℝ) ^ (-(H * ((j : ℝ) - j')))))
    (hmom : ∀ j', 1 ≤ j' → j' ≤ j → ∑ k ∈ interior N F j', |d j' k / σ j'| ^ p ≤ (interior N F j').card * M) :
    ∑ k ∈ A, (L k / σ j) ^ p ≤ 3 * C * E ^ p * M / (1 - ρ * (2:ℝ) ^ (1 - H * p)) * (N / 2 ^ j) := by
  have hσj := hσ j hj le_rfl
  have hr0 : 0 ≤ ρ * (2:ℝ) ^ (1 - H * p) := by positivity
  have hterm : ∀ j' ∈ Icc 1 j, ρ ^ (j - j') * ∑ k' ∈ interior N F j', |d j' k'| ^ p ≤
      σ j ^ p * (E ^ p * M * (N / 2 ^ j)) * (ρ * (2:ℝ) ^ (1 - H * p)) ^ (j - j') := by
    intro j' hj'
    obtain ⟨h1, h2⟩ := mem_Icc.1 hj'
    have hs := hσ j' h1 h2
    have e1 : ∑ k' ∈ interior N F j', |d j' k'| ^ p = σ j' ^ p * ∑ k ∈ interior N F j', |d j' k / σ j'| ^ p := by
      rw [mul_sum]
      refine sum_congr rfl fun k _ => ?_
      rw [abs_div, abs_of_pos hs, Real.div_rpow (abs_nonneg _) hs.le]
      have := (Real.rpow_pos_of_pos hs p).ne'
      field_simp
    have hcard : ((interior N F j').card : ℝ) ≤ N / 2 ^ j * 2 ^ (j - j') := by
      have h3 : (interior N F j').card ≤ N / 2 ^ j' := by
        unfold interior; exact (card_filter_le _ _).trans (by rw [card_range])
      have h4 : ((N / 2 ^ j' : ℕ) : ℝ) ≤ (N : ℝ) / 2 ^ j' := by
        have := @Nat.cast_div_le ℝ _ _ _ N (2 ^ j'); push_cast at this; exact this
      refine (Nat.cast_le.2 h3).trans (h4.trans (le_of_eq ?_))
      have : (2:ℝ) ^ j = 2 ^ j' * 2 ^ (j - j') := by rw [← pow_add]; congr 1; omega
      rw [this]; field_simp
    have hrp : σ j' ^ p ≤ σ j ^ p * (E ^ p * ((2:ℝ) ^ (-(H * p))) ^ (j - j')) := by
      have := Real.rpow_le_rpow hs.le (hratio j' h1 h2) hp.le
      refine this.trans (le_of_eq ?_)
      rw [Real.mul_rpow hσj.le (by positivity), Real.mul_rpow hE.le (by positivity), ← Real.rpow_mul (by norm_num), ← Real.rpow_natCast,
        ← Real.rpow_mul (by norm_num), Nat.cast_sub h2]
      ring_nf
    have e2 : (ρ * (2:ℝ) ^ (1 - H * p)) ^ (j - j') = ρ ^ (j - j') * (2 ^ (j - j') * ((2:ℝ) ^ (-(H * p))) ^ (j - j')) := by
      rw [mul_pow, ← mul_pow 2 _ (j - j')]
      congr 2
      rw [show (1:ℝ) - H * p = 1 + -(H * p) by ring, Real.rpow_add (by norm_num), Real.rpow_one]
    rw [e1, e2]
    have hm := hmom j' h1 h2
    calc ρ ^ (j - j') * (σ j' ^ p * ∑ k ∈ interior N F j', |d j' k / σ j'| ^ p)
        ≤ ρ ^ (j - j') * ((σ j ^ p * (E ^ p * ((2:ℝ) ^ (-(H * p))) ^ (j - j'))) * ((N / 2 ^ j * 2 ^ (j - j')) * M)) := by
          refine mul_le_mul_of_nonneg_left (mul_le_mul hrp (hm.trans (mul_le_mul_of_nonneg_right hcard hM)) ?_ (by positivity)) (by positivity)
          exact sum_nonneg fun _ _ => by positivity
      _ = _ := by ring
  have hgeo : ∑ j' ∈ Icc 1 j, (ρ * (2:ℝ) ^ (1 - H * p)) ^ (j - j') ≤ (1 - ρ * (2:ℝ) ^ (1 - H * p))⁻¹ := by
    have e : ∑ j' ∈ Icc 1 j, (ρ * (2:ℝ) ^ (1 - H * p)) ^ (j - j') = ∑ i ∈ range j, (ρ * (2:ℝ) ^ (1 - H * p)) ^ i := by
      rw [← sum_range_reflect]
      refine sum_bij' (fun a _ => a - 1) (fun a _ => a + 1) ?_ ?_ ?_ ?_ ?_
      · intro a ha; have := mem_Icc.1 ha; rw [mem_range]; omega
      · intro a ha; have := mem_range.1 ha; rw [mem_Icc]; omega
      · intro a ha; have := mem_Icc.1 ha; omega
      · intro a ha; omega
      · intro a ha; have := mem_Icc.1 ha; congr 1; omega
    rw [e, ← tsum_geometric_of_lt_one hr0 hconv]
    exact (summable_geometric_of_lt_one hr0 hconv).sum_le_tsum _ fun i _ => by positivity
  have hL : ∑ k ∈ A, (L k / σ j) ^ p = (∑ k ∈ A, L k ^ p) / σ j ^ p := by
    rw [sum_div]
    exact sum_congr rfl fun k hk => Real.div_rpow (h.pos k hk).le hσj.le p
  have hσp := Real.rpow_pos_of_pos hσj p
  rw [hL, div_le_iff₀ hσp]
  have hD : 0 < 1 - ρ * (2:ℝ) ^ (1 - H * p) := by linarith
  calc ∑ k ∈ A, L k ^ p ≤ 3 * C * ∑ j' ∈ Icc 1 j, ρ ^ (j - j') * ∑ k' ∈ interior N F j', |d j' k'| ^ p := h.sum_up hC hρ
    _ ≤ 3 * C * ∑ j' ∈ Icc 1 j, σ j ^ p * (E ^ p * M * (N / 2 ^ j)) * (ρ * (2:ℝ) ^ (1 - H * p)) ^ (j - j') :=
        mul_le_mul_of_nonneg_left (sum_le_sum hterm) (by positivity)
    _ ≤ 3 * C * (σ j ^ p * (E ^ p * M * (N / 2 ^ j)) * (1 - ρ * (2:ℝ) ^ (1 - H * p))⁻¹) := by
        rw [← mul_sum]
        exact mul_le_mul_of_nonneg_left (mul_le_mul_of_nonneg_left hgeo (by positivity)) (by positivity)
    _ = _ := by field_simp

/-- **The negative moments of the leaders are bounded.** -/
theorem LeaderLike.neg_moments (h : LeaderLike N F j d A L C ρ κ p) (hj : 1 ≤ j) {σ : ℕ → ℝ} (hσ : ∀ j', 1 ≤ j' → j' ≤ j → 0 < σ j')
    (hne : ∀ j' k, 1 ≤ j' → j' ≤ j → k ∈ interior N F j' → d j' k ≠ 0)
    {s s1 D M : ℝ} (hs : 0 < s) (hs1 : s < s1) (hκ : 0 < κ) (hM : 0 ≤ M)
    (hratio : ∀ j', 1 ≤ j' → j' ≤ j → σ j ≤ D * (κ * σ j')) (hD : 0 ≤ D)
    (hmom : ∑ k ∈ interior N F j, |d j k / σ j| ^ (-s) ≤ (interior N F j).card * M)
    (hmom1 : ∀ j', 1 ≤ j' → j' ≤ j → ∑ k ∈ interior N F j', |d j' k / σ j'| ^ (-s1) ≤ (interior N F j').card * M) :
    ∑ k ∈ A, (L k / σ j) ^ (-s) ≤ M * (N / 2 ^ j) + 2 * F * (D ^ s * (N * M) ^ (s / s1)) := by
  have hσj := hσ j hj le_rfl
  rw [← sum_filter_add_sum_filter_not A (fun k => k ∈ interior N F j)]
  have hcardj : ((interior N F j).card : ℝ) ≤ N / 2 ^ j := by
    have h3 : (interior N F j).card ≤ N / 2 ^ j := by
      unfold interior; exact (card_filter_le _ _).trans (by rw [card_range])
    have h4 : ((N / 2 ^ j : ℕ) : ℝ) ≤ (N : ℝ) / 2 ^ j := by
      have := @Nat.cast_div_le ℝ _ _ _ N (2 ^ j); push_cast at this; exact this
    exact (Nat.cast_le.2 h3).trans h4
  refine add_le_add ?_ ?_
  · calc ∑ k ∈ A.filter (fun k => k ∈ interior N F j), (L k / σ j) ^ (-s) ≤ ∑ k ∈ A.filter (fun k => k ∈ interior N F j), |d j k / σ j| ^ (-s) := by
          refine sum_le_sum fun k hk => ?_
          obtain ⟨hkA, hkI⟩ := mem_filter.1 hk
          have h1 : 0 < |d j k / σ j| := abs_pos.2 (div_ne_zero (hne j k hj le_rfl hkI) hσj.ne')
          refine Real.rpow_le_rpow_of_nonpos h1 ?_ (by linarith)
          rw [abs_div, abs_of_pos hσj]
          exact div_le_div_of_nonneg_right (h.above k hkI hkA) hσj.le
      _ ≤ ∑ k ∈ interior N F j, |d j k / σ j| ^ (-s) :=
          sum_le_sum_of_subset_of_nonneg (fun k hk => (mem_filter.1 hk).2) fun _ _ _ => by positivity
      _ ≤ M * (N / 2 ^ j) := by
          refine hmom.trans ?_
          rw [mul_comm]
          exact mul_le_mul_of_nonneg_left hcardj hM
  · have hcard : (A.filter fun k => ¬ k ∈ interior N F j).card ≤ 2 * F := by
      have h1 := interior_card_ge N F j hj
      have h2 : (A.filter fun k => ¬ k ∈ interior N F j) ⊆ range (N / 2 ^ j) \ interior N F j := by
        intro k hk
        obtain ⟨h3, h4⟩ := mem_filter.1 hk
        have := mem_range.1 (h.sub h3)
        rw [mem_sdiff, mem_range]
        exact ⟨by omega, h4⟩
      refine (card_le_card h2).trans ?_
      rw [card_sdiff_of_subset (by unfold interior; exact filter_subset _ _), card_range]
      omega
    have hterm : ∀ k ∈ A.filter (fun k => ¬ k ∈ interior N F j), (L k / σ j) ^ (-s) ≤ D ^ s * (N * M) ^ (s / s1) := by
      intro k hk
      obtain ⟨j', k', h1, h2, h3, h4⟩ := h.low k (mem_filter.1 hk).1
      have hσ' := hσ j' h1 h2
      have hz : 0 < |d j' k' / σ j'| := abs_pos.2 (div_ne_zero (hne j' k' h1 h2 h3) hσ'.ne')
      have hD0 : 0 < D := by
        rcases hD.lt_or_eq with h5 | h5
        · exact h5
        · have := hratio j' h1 h2
          rw [← h5, zero_mul] at this; linarith
      have hlow : |d j' k' / σ j'| / D ≤ L k / σ j := by
        rw [abs_div, abs_of_pos hσ', div_div, div_le_div_iff₀ (by positivity) hσj]
        calc |d j' k'| * σ j ≤ |d j' k'| * (D * (κ * σ j')) := mul_le_mul_of_nonneg_left (hratio j' h1 h2) (abs_nonneg _)
          _ = (κ * |d j' k'|) * (σ j' * D) := by ring
          _ ≤ L k * (σ j' * D) := mul_le_mul_of_nonneg_right h4 (by positivity)
      have h5 : (L k / σ j) ^ (-s) ≤ (|d j' k' / σ j'| / D) ^ (-s) := Real.rpow_le_rpow_of_nonpos (by positivity) hlow (by linarith)
      refine h5.trans ?_
      rw [Real.div_rpow hz.le hD, Real.rpow_neg hD, div_inv_eq_mul, mul_comm]
      refine mul_le_mul_of_nonneg_left ?_ (by positivity)
      have h6 : |d j' k' / σ j'| ^ (-s1) ≤ N * M := by
        have h7 : |d j' k' / σ j'| ^ (-s1) ≤ ∑ k ∈ interior N F j', |d j' k / σ j'| ^ (-s1) :=
          single_le_sum (f := fun k => |d j' k / σ j'| ^ (-s1)) (fun _ _ => by positivity) h3
        have h8 : (interior N F j').card ≤ N := by
          unfold interior; exact (card_filter_le _ _).trans (by rw [card_range]; exact Nat.div_le_self _ _)
        refine h7.trans ((hmom1 j' h1 h2).trans (mul_le_mul_of_nonneg_right (by exact_mod_cast h8) hM))
      have h9 : |d j' k' / σ j'| ^ (-s) = (|d j' k' / σ j'| ^ (-s1)) ^ (s / s1) := by
        rw [← Real.rpow_mul hz.le]
        congr 1
        have : s1 ≠ 0 := by linarith
        field_simp
      rw [h9]
      exact Real.rpow_le_rpow (by positivity) h6 (by have : 0 < s1 := by linarith
                                                     positivity)
    refine (sum_le_card_nsmul _ _ _ hterm).trans ?_
    rw [nsmul_eq_mul]
    refine mul_le_mul_of_nonneg_right ?_ (by positivity)
    exact_mod_cast hcard

end

end MFA
