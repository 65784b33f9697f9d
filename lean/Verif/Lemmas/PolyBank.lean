import Verif.Lemmas.IdealBank

/-! The ideal filter bank on polynomials whose degree is the number of vanishing moments. -/

namespace MFA

open Classical Finset Polynomial

theorem coeff_comp_affine (q : ℝ[X]) {M : ℕ} (hq : q.natDegree ≤ M) (c : ℝ) :
    (q.comp (C 2 * X + C c)).coeff M = 2 ^ M * q.coeff M ∧ (q.comp (C 2 * X + C c)).natDegree ≤ M := by
  have hl : (C (2:ℝ) * X + C c).natDegree = 1 := natDegree_linear (by norm_num)
  have hd : (q.comp (C 2 * X + C c)).natDegree = q.natDegree := by rw [natDegree_comp, hl, mul_one]
  refine ⟨?_, by rw [hd]; exact hq⟩
  rcases hq.lt_or_eq with h | h
  · rw [coeff_eq_zero_of_natDegree_lt (by rw [hd]; exact h), coeff_eq_zero_of_natDegree_lt h, mul_zero]
  · have := coeff_comp_degree_mul_degree (p := q) (q := C (2:ℝ) * X + C c) (by rw [hl]; norm_num)
    rw [hl, mul_one] at this
    rw [← h, this, leadingCoeff_linear (by norm_num), mul_comm, leadingCoeff]

theorem downFilter_poly_lead (f : List ℝ) (q : ℝ[X]) {M : ℕ} (hq : q.natDegree ≤ M) : ∃ q' : ℝ[X], q'.natDegree ≤ M ∧
    q'.coeff M = 2 ^ M * (∑ m ∈ range f.length, f.getD m 0) * q.coeff M ∧
    ∀ k : ℤ, downFilter f (fun t => q.eval (t : ℝ)) k = q'.eval (k : ℝ) := by
  refine ⟨∑ m ∈ range f.length, C (f.getD m 0) *
    q.comp (C 2 * X + C (1 + (((f.length - 1) / 2 : ℕ) : ℝ) - m)), ?_, ?_, ?_⟩
  · apply natDegree_sum_le_of_forall_le
    intro m _
    exact (natDegree_C_mul_le _ _).trans (coeff_comp_affine q hq _).2
  · rw [finset_sum_coeff]
    simp only [coeff_C_mul, (coeff_comp_affine q hq _).1]
    rw [Finset.mul_sum, Finset.sum_mul]
    apply Finset.sum_congr rfl
    intro m _; ring
  · intro k
    rw [downFilter, eval_finsetSum]
    apply Finset.sum_congr rfl
    intro m _
    simp only [eval_mul, eval_C, eval_comp, eval_add, eval_X]
    congr 2
    generalize (f.length - 1) / 2 = h
    push_cast; ring

theorem idealApprox_poly_lead (lo : List ℝ) (q : ℝ[X]) {M : ℕ} (hq : q.natDegree ≤ M) (j : ℕ) :
    ∃ q' : ℝ[X], q'.natDegree ≤ M ∧
    q'.coeff M = (2 ^ M * (∑ m ∈ range lo.length, lo.getD m 0)) ^ j * q.coeff M ∧
    idealApprox lo (fun t => q.eval (t : ℝ)) j = fun k : ℤ => q'.eval (k : ℝ) := by
  induction j with
  | zero => exact ⟨q, hq, by simp, rfl⟩
  | succ j ih =>
    obtain ⟨q1, h1, l1, e1⟩ := ih
    obtain ⟨q2, h2, l2, e2⟩ := downFilter_poly_lead lo q1 h1
    refine ⟨q2, h2, ?_, ?_⟩
    · rw [l2, l1, pow_succ]; ring
    · funext k
      rw [idealApprox, e1, e2]

theorem downFilter_top (f : List ℝ) {M : ℕ} (hf : VanishingMoments f M) (q : ℝ[X]) (hq : q.natDegree ≤ M) (k : ℤ) :
    downFilter f (fun t => q.eval (t : ℝ)) k
      = (-1) ^ M * (∑ m ∈ range f.length, f.getD m 0 * (m : ℝ) ^ M) * q.coeff M := by
  set c : ℝ := 2 * k + 1 + (((f.length - 1) / 2 : ℕ) : ℝ) with hc
  set q1 : ℝ[X] := q.comp (C c - X) with hq1
  have hlin : (C c - X : ℝ[X]) = C (-1) * X + C c := by simp; ring
  have hl : (C c - X : ℝ[X]).natDegree = 1 := by rw [hlin]; exact natDegree_linear (by norm_num)
  have hd : q1.natDegree = q.natDegree := by rw [hq1, natDegree_comp, hl, mul_one]
  have hco : q1.coeff M = (-1) ^ M * q.coeff M := by
    rcases hq.lt_or_eq with h | h
    · rw [coeff_eq_zero_of_natDegree_lt (by rw [hd]; exact h), coeff_eq_zero_of_natDegree_lt h, mul_zero]
    · have := coeff_comp_degree_mul_degree (p := q) (q := C c - X) (by rw [hl]; norm_num)
      rw [hl, mul_one] at this
      rw [← h, hq1, this, hlin, leadingCoeff_linear (by norm_num), mul_comm, leadingCoeff]
  have heval : ∀ m : ℕ, q.eval (((2 * k + 1 + ((f.length - 1) / 2 : ℕ) - m : ℤ)) : ℝ) = q1.eval (m : ℝ) := by
    intro m
    rw [hq1, eval_comp, hc]
    congr 1
    simp only [eval_sub, eval_C, eval_X]
    generalize (f.length - 1) / 2 = h
    push_cast; ring
  rw [downFilter]
  simp only [heval]
  have hexp : ∀ m : ℕ, q1.eval (m : ℝ) = ∑ i ∈ range (M + 1), q1.coeff i * (m : ℝ) ^ i := by
    intro m
    rw [eval_eq_sum_range' (lt_of_le_of_lt (hd.le.trans hq) (Nat.lt_succ_self M))]
  simp only [hexp, Finset.mul_sum]
  rw [Finset.sum_comm, Finset.sum_range_succ, Finset.sum_eq_zero, zero_add]
  · rw [Finset.sum_mul]
    apply Finset.sum_congr rfl
    intro m _; rw [hco]; ring
  · intro i hi
    have := hf i (Finset.mem_range.mp hi)
    calc ∑ m ∈ range f.length, f.getD m 0 * (q1.coeff i * (m : ℝ) ^ i)
        = q1.coeff i * ∑ m ∈ range f.length, f.getD m 0 * (m : ℝ) ^ i := by
          rw [Finset.mul_sum]; apply Finset.sum_congr rfl; intro m _; ring
      _ = 0 := by rw [this, mul_zero]

/-- Ideal details of a polynomial of degree at most the number of vanishing moments: constant in position, geometric in
scale. -/
theorem idealDetail_top (wt : Wavelet) {M : ℕ} (hf : VanishingMoments wt.dec_hi M) (q : ℝ[X])
    (hq : q.natDegree ≤ M) (j : ℕ) (k : ℤ) : idealDetail wt (fun t => q.eval (t : ℝ)) j k
      = -((-1) ^ M * (∑ m ∈ range wt.dec_hi.length, wt.dec_hi.getD m 0 * (m : ℝ) ^ M) *
        ((2 ^ M * (∑ m ∈ range wt.dec_lo.length, wt.dec_lo.getD m 0)) ^ (j - 1) * q.coeff M)) := by
  obtain ⟨q', h1, h2, e⟩ := idealApprox_poly_lead wt.dec_lo q hq (j - 1)
  rw [idealDetail, e, downFilter_top _ hf _ h1, h2]

end MFA
