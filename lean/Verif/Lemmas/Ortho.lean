import Verif.Spec.Orthonormal
import Verif.Lemmas.IdealBank

/-! Impulse responses of the ideal filter bank, and their orthonormality for orthonormal filters. -/

namespace MFA

open Finset

noncomputable section

theorem downFilter_zero (f : List ℝ) (k : ℤ) : downFilter f (fun _ => 0) k = 0 := by simp [downFilter]

theorem idealApprox_zero (lo : List ℝ) (j : ℕ) : idealApprox lo (fun _ => 0) j = fun _ => 0 := by
  have := idealApprox_linear lo 0 0 (fun _ => 0) (fun _ => 0) j
  simpa using this

theorem idealApprox_sum {ι : Type*} (lo : List ℝ) (s : Finset ι) (a : ι → ℝ) (x : ι → ℤ → ℝ) (j : ℕ) (k : ℤ) :
    idealApprox lo (fun t => ∑ i ∈ s, a i * x i t) j k = ∑ i ∈ s, a i * idealApprox lo (x i) j k := by
  classical
  induction s using Finset.induction_on with
  | empty => simp [idealApprox_zero]
  | insert i s hi ih =>
    simp only [sum_insert hi]
    have := congrFun (idealApprox_linear lo (a i) 1 (x i) (fun t => ∑ i ∈ s, a i * x i t) j) k
    simp only [one_mul] at this
    rw [this, ih]

theorem idealDetail_sum {ι : Type*} (wt : Wavelet) (s : Finset ι) (a : ι → ℝ) (x : ι → ℤ → ℝ) (j : ℕ) (k : ℤ) :
    idealDetail wt (fun t => ∑ i ∈ s, a i * x i t) j k = ∑ i ∈ s, a i * idealDetail wt (x i) j k := by
  classical
  induction s using Finset.induction_on with
  | empty => simp [idealDetail, idealApprox_zero, downFilter_zero]
  | insert i s hi ih =>
    simp only [sum_insert hi]
    have := idealDetail_linear wt (a i) 1 (x i) (fun t => ∑ i ∈ s, a i * x i t) j k
    simp only [one_mul] at this
    rw [this, ih]

/-- Impulse response of the approximation. -/
def approxWeight (lo : List ℝ) (j : ℕ) (k : ℤ) (t : ℤ) : ℝ := idealApprox lo (fun s => if s = t then 1 else 0) j k

theorem approxWeight_zero (lo : List ℝ) (k : ℤ) : approxWeight lo 0 k = fun t => if k = t then 1 else 0 := rfl

theorem approxWeight_succ (lo : List ℝ) (j : ℕ) (k : ℤ) : approxWeight lo (j + 1) k =
    fun t => ∑ m ∈ range lo.length, lo.getD m 0 * approxWeight lo j (2 * k + 1 + ((lo.length - 1) / 2 : ℕ) - m) t := rfl

theorem weight_succ (wt : Wavelet) (j : ℕ) (k : ℤ) : weight wt (j + 1) k =
    fun t => ∑ m ∈ range wt.dec_hi.length, (- wt.dec_hi.getD m 0) *
      approxWeight wt.dec_lo j (2 * k + 1 + ((wt.dec_hi.length - 1) / 2 : ℕ) - m) t := by
  funext t
  rw [weight, idealDetail, Nat.add_sub_cancel, downFilter, ← sum_neg_distrib]
  exact sum_congr rfl fun m _ => by rw [neg_mul]; rfl

/-- Filtering an impulse train synthesised with `f'` by `f`. -/
theorem downFilter_synth (f f' : List ℝ) (h : f.length = f'.length) (k k' : ℤ) :
    downFilter f (fun n => ∑ m ∈ range f'.length, f'.getD m 0 * if n = 2 * k' + 1 + ((f'.length - 1) / 2 : ℕ) - m then 1 else 0) k
      = evenCorrelation f f' (k - k') := by
  rw [downFilter, evenCorrelation]
  refine sum_congr rfl fun m _ => ?_
  rw [mul_sum]
  refine sum_congr rfl fun m' _ => ?_
  rw [h]
  by_cases hm : (m : ℤ) - m' = 2 * (k - k')
  · rw [if_pos hm, if_pos (by linarith), mul_one]
  · rw [if_neg hm, if_neg (by intro h; exact hm (by linarith)), mul_zero, mul_zero]

variable {wt : Wavelet}

theorem approx_approxWeight (_hwt : wt.Valid) (ho : OrthonormalBank wt) (j : ℕ) (k k' : ℤ) :
    idealApprox wt.dec_lo (approxWeight wt.dec_lo j k') j k = if k = k' then 1 else 0 := by
  induction j generalizing k k' with
  | zero => rw [approxWeight_zero, idealApprox]; simp only [eq_comm]
  | succ j ih =>
    rw [idealApprox, approxWeight_succ]
    have : idealApprox wt.dec_lo (fun t => ∑ m ∈ range wt.dec_lo.length, wt.dec_lo.getD m 0 *
        approxWeight wt.dec_lo j (2 * k' + 1 + ((wt.dec_lo.length - 1) / 2 : ℕ) - m) t) j
        = fun n => ∑ m ∈ range wt.dec_lo.length, wt.dec_lo.getD m 0 *
          if n = 2 * k' + 1 + ((wt.dec_lo.length - 1) / 2 : ℕ) - m then 1 else 0 := by
      funext n
      rw [idealApprox_sum]
      exact sum_congr rfl fun m _ => by rw [ih]
    rw [this, downFilter_synth _ _ rfl, ho.lo]
    simp only [sub_eq_zero]

theorem approx_weight (hwt : wt.Valid) (ho : OrthonormalBank wt) (j : ℕ) (k' : ℤ) :
    idealApprox wt.dec_lo (weight wt (j + 1) k') j = fun n => - ∑ m ∈ range wt.dec_hi.length, wt.dec_hi.getD m 0 *
          if n = 2 * k' + 1 + ((wt.dec_hi.length - 1) / 2 : ℕ) - m then 1 else 0 := by
  funext n
  rw [weight_succ, idealApprox_sum, ← sum_neg_distrib]
  exact sum_congr rfl fun m _ => by rw [approx_approxWeight hwt ho, neg_mul]

theorem downFilter_opp (f : List ℝ) (x : ℤ → ℝ) (k : ℤ) : downFilter f (fun t => - x t) k = - downFilter f x k := by
  rw [downFilter, downFilter, ← sum_neg_distrib]
  exact sum_congr rfl fun m _ => by rw [mul_neg]

theorem evenCorrelation_swap (f f' : List ℝ) (n : ℤ) : evenCorrelation f f' n = evenCorrelation f' f (-n) := by
  rw [evenCorrelation, evenCorrelation, sum_comm]
  refine sum_congr rfl fun m' _ => sum_congr rfl fun m _ => ?_
  exact if_congr ⟨fun h => by linarith, fun h => by linarith⟩ (mul_comm _ _) rfl

/-- The approximation of a detail function vanishes from its own scale on. -/
theorem approx_weight_coarse (hwt : wt.Valid) (ho : OrthonormalBank wt) (j i : ℕ) (k' : ℤ) :
    idealApprox wt.dec_lo (weight wt (j + 1) k') (j + 1 + i) = fun _ => 0 := by
  induction i with
  | zero =>
    funext k
    rw [add_zero, idealApprox, approx_weight hwt ho, downFilter_opp, downFilter_synth _ _ hwt.same, ho.cross, neg_zero]
  | succ i ih =>
    funext k
    rw [← add_assoc, idealApprox, ih, downFilter_zero]

/-- Details of the scaling functions of a coarser or equal scale vanish. -/
theorem detail_approxWeight (hwt : wt.Valid) (ho : OrthonormalBank wt) (j i : ℕ) (k k' : ℤ) :
    idealDetail wt (approxWeight wt.dec_lo (j + 1 + i) k') (j + 1) k = 0 := by
  induction i generalizing k' with
  | zero =>
    rw [add_zero, idealDetail, Nat.add_sub_cancel, approxWeight_succ]
    have : idealApprox wt.dec_lo (fun t => ∑ m ∈ range wt.dec_lo.length, wt.dec_lo.getD m 0 *
        approxWeight wt.dec_lo j (2 * k' + 1 + ((wt.dec_lo.length - 1) / 2 : ℕ) - m) t) j
        = fun n => ∑ m ∈ range wt.dec_lo.length, wt.dec_lo.getD m 0 *
          if n = 2 * k' + 1 + ((wt.dec_lo.length - 1) / 2 : ℕ) - m then 1 else 0 := by
      funext n
      rw [idealApprox_sum]
      exact sum_congr rfl fun m _ => by rw [approx_approxWeight hwt ho]
    rw [this, downFilter_synth _ _ hwt.same.symm, evenCorrelation_swap, ho.cross, neg_zero]
  | succ i ih =>
    rw [← add_assoc, approxWeight_succ, idealDetail_sum]
    exact sum_eq_zero fun m _ => by rw [ih, mul_zero]

/-- The impulse responses of an orthonormal bank are orthonormal (`j, j' >= 1`). -/
theorem detail_weight (hwt : wt.Valid) (ho : OrthonormalBank wt) {j j' : ℕ} (hj : 1 ≤ j) (hj' : 1 ≤ j') (k k' : ℤ) :
    idealDetail wt (weight wt j' k') j k = if j = j' ∧ k = k' then 1 else 0 := by
  obtain ⟨i, rfl⟩ : ∃ i, j = i + 1 := ⟨j - 1, by omega⟩
  obtain ⟨i', rfl⟩ : ∃ i', j' = i' + 1 := ⟨j' - 1, by omega⟩
  rcases lt_trichotomy i i' with h | h | h
  · rw [if_neg (by omega), weight_succ, idealDetail_sum]
    refine sum_eq_zero fun m _ => ?_
    have := detail_approxWeight hwt ho i (i' - (i + 1)) k (2 * k' + 1 + ((wt.dec_hi.length - 1) / 2 : ℕ) - m)
    rw [show i + 1 + (i' - (i + 1)) = i' by omega] at this
    rw [this, mul_zero]
  · subst h
    rw [idealDetail, Nat.add_sub_cancel, approx_weight hwt ho, downFilter_opp, neg_neg, downFilter_synth _ _ rfl, ho.hi]
    simp only [sub_eq_zero, true_and]
  · rw [if_neg (by omega), idealDetail, Nat.add_sub_cancel]
    have := approx_weight_coarse hwt ho i' (i - (i' + 1)) k'
    rw [show i' + 1 + (i - (i' + 1)) = i by omega] at this
    rw [this, downFilter_zero, neg_zero]

/-- Translating an impulse translates its response. -/
theorem weight_shift (wt : Wavelet) {j : ℕ} (hj : 1 ≤ j) (k c t : ℤ) :
    weight wt j (k + c) (t + c * 2 ^ j) = weight wt j k t := by
  rw [weight, weight, ← idealDetail_shift wt _ hj c k]
  congr 1
  funext s
  simp only [add_left_inj]

end

end MFA
