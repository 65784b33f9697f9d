import Verif.Lemmas.FgnCov
import Mathlib.Analysis.Calculus.Deriv.MeanValue
import Mathlib.Analysis.SpecialFunctions.Pow.Deriv
import Mathlib.Topology.Algebra.InfiniteSum.Real
import Mathlib.Analysis.SpecialFunctions.Pow.Asymptotics

/-! Second differences of powers: mean value form, sign, sums and asymptotics (used for C112). -/

namespace MFA

open Finset Filter Topology

noncomputable section

/-- First differences of a power: mean value form. -/
theorem rpow_diff_mean {α : ℝ} {x : ℝ} (h : 0 < x ∨ (0 ≤ x ∧ 0 < α)) :
    ∃ ξ, x < ξ ∧ ξ < x + 1 ∧ (x + 1) ^ α - x ^ α = α * ξ ^ (α - 1) := by
  have hx0 : 0 ≤ x := by rcases h with h | h; exacts [h.le, h.1]
  obtain ⟨c, hc, he⟩ := exists_hasDerivAt_eq_slope (fun y : ℝ => y ^ α) (fun y => α * y ^ (α - 1)) (lt_add_one x)
    (ContinuousOn.rpow_const (by fun_prop) fun y hy => by
      rcases h with h | h
      · exact Or.inl (by have := hy.1; linarith)
      · exact Or.inr h.2.le)
    (fun y hy => by
      have hy0 : 0 < y := by have := hy.1; linarith
      simpa using (Real.hasDerivAt_rpow_const (p := α) (Or.inl hy0.ne')))
  refine ⟨c, hc.1, hc.2, ?_⟩
  rw [he]; simp

/-- Second differences of a power: mean value form. -/
theorem fdR_mean {α : ℝ} {x : ℝ} (hx : 1 ≤ x) (hα : 0 < α) :
    ∃ ξ, x - 1 < ξ ∧ ξ < x + 1 ∧ fdR α x = α * (α - 1) * ξ ^ (α - 2) := by
  obtain ⟨c, hc, he⟩ := exists_hasDerivAt_eq_slope (fun y : ℝ => (y + 1) ^ α - y ^ α)
    (fun y => α * (y + 1) ^ (α - 1) - α * y ^ (α - 1)) (sub_one_lt x)
    (ContinuousOn.sub (ContinuousOn.rpow_const (by fun_prop) fun y _ => Or.inr hα.le)
      (ContinuousOn.rpow_const (by fun_prop) fun y _ => Or.inr hα.le))
    (fun y hy => by
      have hy0 : 0 < y := by have := hy.1; linarith
      have h1 : HasDerivAt (fun y : ℝ => (y + 1) ^ α) (1 * α * (y + 1) ^ (α - 1)) y :=
        ((hasDerivAt_id y).add_const 1).rpow_const (Or.inl (by simp; linarith))
      have h2 : HasDerivAt (fun y : ℝ => y ^ α) (α * y ^ (α - 1)) y := by
        simpa using (Real.hasDerivAt_rpow_const (p := α) (Or.inl hy0.ne'))
      rw [one_mul] at h1
      exact h1.sub h2)
  obtain ⟨ξ, h1, h2, h3⟩ := rpow_diff_mean (α := α - 1) (x := c) (Or.inl (by have := hc.1; linarith))
  refine ⟨ξ, by have := hc.1; linarith, by have := hc.2; linarith, ?_⟩
  rw [← mul_sub, h3] at he
  have : fdR α x = ((x + 1) ^ α - x ^ α - ((x - 1 + 1) ^ α - (x - 1) ^ α)) / (x - (x - 1)) := by
    unfold fdR; rw [sub_add_cancel, sub_sub_cancel]; ring
  rw [this, ← he, show α - 1 - 1 = α - 2 by ring]; ring

theorem fd_mean {α : ℝ} (hα : 0 < α) (n : ℕ) :
    ∃ ξ : ℝ, (n : ℝ) < ξ ∧ ξ < (n : ℝ) + 2 ∧ fd α (n + 1) = α * (α - 1) * ξ ^ (α - 2) := by
  obtain ⟨ξ, h1, h2, h3⟩ := fdR_mean (α := α) (x := (n : ℝ) + 1) (by linarith [Nat.cast_nonneg (α := ℝ) n]) hα
  exact ⟨ξ, by linarith, by linarith, by rw [fd_eq_fdR, h3]⟩

theorem fd_neg {α : ℝ} (h0 : 0 < α) (h1 : α < 1) (n : ℕ) : fd α (n + 1) < 0 := by
  obtain ⟨ξ, a, _, c⟩ := fd_mean h0 n
  have hξ : 0 < ξ := lt_of_le_of_lt (Nat.cast_nonneg n) a
  rw [c]
  have : 0 < ξ ^ (α - 2) := Real.rpow_pos_of_pos hξ _
  nlinarith [mul_pos (mul_pos h0 (sub_pos.mpr h1)) this]

theorem fd_pos {α : ℝ} (h1 : 1 < α) (n : ℕ) : 0 < fd α (n + 1) := by
  obtain ⟨ξ, a, _, c⟩ := fd_mean (by linarith : (0:ℝ) < α) n
  have hξ : 0 < ξ := lt_of_le_of_lt (Nat.cast_nonneg n) a
  rw [c]
  have : 0 < ξ ^ (α - 2) := Real.rpow_pos_of_pos hξ _
  have h2 : 0 < α * (α - 1) := mul_pos (by linarith) (by linarith)
  exact mul_pos h2 this

/-- Telescoping sums. -/
theorem fd_sum {α : ℝ} (hα : 0 < α) (m : ℕ) :
    2 + 2 * ∑ i ∈ range m, fd α (i + 1) = 2 * (((m : ℝ) + 1) ^ α - (m : ℝ) ^ α) := by
  induction m with
  | zero => simp [Real.zero_rpow hα.ne']
  | succ m ih =>
    rw [sum_range_succ, mul_add, ← add_assoc, ih, fd_succ]
    push_cast
    rw [show (m : ℝ) + 1 + 1 = m + 2 by ring]; ring

theorem fd_asymptotic {α : ℝ} (hα : 0 < α) :
    Tendsto (fun n : ℕ => fd α n * (n : ℝ) ^ (2 - α)) atTop (𝓝 (α * (α - 1))) := by
  rw [← tendsto_add_atTop_iff_nat 1]
  choose ξ h1 h2 h3 using fun n : ℕ => fd_mean hα n
  have hξ : ∀ n, 0 < ξ n := fun n => lt_of_le_of_lt (Nat.cast_nonneg n) (h1 n)
  have hr : Tendsto (fun n : ℕ => ξ n / ((n : ℝ) + 1)) atTop (𝓝 1) := by
    have hz : Tendsto (fun n : ℕ => 1 / ((n : ℝ) + 1)) atTop (𝓝 0) := tendsto_one_div_add_atTop_nhds_zero_nat
    refine tendsto_of_tendsto_of_tendsto_of_le_of_le (g := fun n : ℕ => 1 - 1 / ((n : ℝ) + 1))
      (h := fun n : ℕ => 1 + 1 / ((n : ℝ) + 1)) ?_ ?_ ?_ ?_
    · simpa using tendsto_const_nhds.sub hz
    · simpa using tendsto_const_nhds.add hz
    · intro n
      have hn : (0:ℝ) < (n : ℝ) + 1 := by positivity
      simp only
      rw [le_div_iff₀ hn, sub_mul, one_div_mul_cancel hn.ne']
      linarith [h1 n]
    · intro n
      have hn : (0:ℝ) < (n : ℝ) + 1 := by positivity
      simp only
      rw [div_le_iff₀ hn, add_mul, one_div_mul_cancel hn.ne']
      linarith [h2 n]
  have hp := (hr.rpow_const (p := α - 2) (Or.inl one_ne_zero)).const_mul (α * (α - 1))
  rw [Real.one_rpow, mul_one] at hp
  refine hp.congr fun n => ?_
  have hn : (0:ℝ) < (n : ℝ) + 1 := by positivity
  rw [h3, Real.div_rpow (hξ n).le hn.le, div_eq_mul_inv, ← Real.rpow_neg hn.le]
  push_cast
  rw [show -(α - 2) = 2 - α by ring]; ring

theorem rpow_diff_zero {α : ℝ} (h0 : 0 < α) (h1 : α < 1) :
    Tendsto (fun n : ℕ => ((n : ℝ) + 1) ^ α - (n : ℝ) ^ α) atTop (𝓝 0) := by
  have hlim : Tendsto (fun n : ℕ => α * (n : ℝ) ^ (α - 1)) atTop (𝓝 0) := by
    have := ((tendsto_rpow_neg_atTop (y := 1 - α) (by linarith)).comp tendsto_natCast_atTop_atTop).const_mul α
    rw [mul_zero] at this
    refine this.congr fun n => ?_
    simp only [Function.comp]; rw [neg_sub]
  refine tendsto_of_tendsto_of_tendsto_of_le_of_le' tendsto_const_nhds hlim ?_ ?_
  · exact Eventually.of_forall fun n => sub_nonneg.mpr (Real.rpow_le_rpow (by positivity) (by linarith) h0.le)
  · filter_upwards [eventually_gt_atTop 0] with n hn
    have hn' : (0:ℝ) < n := by exact_mod_cast hn
    obtain ⟨ξ, a, _, c⟩ := rpow_diff_mean (α := α) (x := (n : ℝ)) (Or.inl hn')
    rw [c]
    exact mul_le_mul_of_nonneg_left (Real.rpow_le_rpow_of_nonpos hn' a.le (by linarith)) h0.le

theorem rpow_diff_top {α : ℝ} (h1 : 1 < α) :
    Tendsto (fun n : ℕ => ((n : ℝ) + 1) ^ α - (n : ℝ) ^ α) atTop atTop := by
  have hlim : Tendsto (fun n : ℕ => (n : ℝ) ^ (α - 1)) atTop atTop :=
    (tendsto_rpow_atTop (y := α - 1) (by linarith)).comp tendsto_natCast_atTop_atTop
  refine tendsto_atTop_mono (fun n => ?_) hlim
  obtain ⟨ξ, a, _, c⟩ := rpow_diff_mean (α := α) (x := (n : ℝ)) (Or.inr ⟨Nat.cast_nonneg n, by linarith⟩)
  rw [c]
  have : (n : ℝ) ^ (α - 1) ≤ ξ ^ (α - 1) := Real.rpow_le_rpow (Nat.cast_nonneg n) a.le (by linarith)
  have h0 : 0 ≤ ξ ^ (α - 1) := Real.rpow_nonneg (le_trans (Nat.cast_nonneg n) a.le) _
  nlinarith

end

end MFA
