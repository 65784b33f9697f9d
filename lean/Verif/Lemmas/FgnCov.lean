import Verif.Lemmas.Polya
import Mathlib.Analysis.Convex.SpecificFunctions.Pow
import Mathlib.Analysis.Convex.SpecificFunctions.Basic
import Mathlib.Analysis.Convex.Deriv
import Mathlib.Analysis.SpecialFunctions.Pow.Deriv

/-!
# The autocovariance of fractional Gaussian noise has a non-negative embedding spectrum
-/

namespace MFA

open Classical Finset

noncomputable section

/-- Second central difference of `|x|^α` at the integer `n`. -/
def fd (α : ℝ) (n : ℕ) : ℝ := |(n : ℝ) + 1| ^ α + |(n : ℝ) - 1| ^ α - 2 * |(n : ℝ)| ^ α

theorem fd_succ (α : ℝ) (n : ℕ) : fd α (n + 1) = ((n + 2 : ℕ) : ℝ) ^ α + (n : ℝ) ^ α - 2 * ((n + 1 : ℕ) : ℝ) ^ α := by
  unfold fd
  have h1 : |((n + 1 : ℕ) : ℝ) + 1| = ((n + 2 : ℕ) : ℝ) := by
    rw [abs_of_nonneg (by positivity)]; push_cast; ring
  have h2 : |((n + 1 : ℕ) : ℝ) - 1| = (n : ℝ) := by
    have : ((n + 1 : ℕ) : ℝ) - 1 = n := by push_cast; ring
    rw [this, abs_of_nonneg (by positivity)]
  rw [h1, h2, abs_of_nonneg (by positivity : (0:ℝ) ≤ ((n + 1 : ℕ) : ℝ))]

theorem fd_zero (α : ℝ) : fd α 0 = 2 * ((1 : ℕ) : ℝ) ^ α - 2 * ((0 : ℕ) : ℝ) ^ α := by
  unfold fd; simp; ring

/-- Telescoping: the sum over the even extension of the second differences. -/
theorem fd_evenExt_sum (α : ℝ) (m : ℕ) :
    ∑ i ∈ range (2 * (m + 2) - 2), evenExt (fd α) (m + 2) i = ((m + 2 : ℕ) : ℝ) ^ α - (m : ℝ) ^ α := by
  rw [evenExt_sum]
  have h : ∀ m : ℕ, ∑ i ∈ range m, fd α (i + 1)
      = ((m + 1 : ℕ) : ℝ) ^ α - (m : ℝ) ^ α - (((1 : ℕ) : ℝ) ^ α - ((0 : ℕ) : ℝ) ^ α) := by
    intro m
    induction m with
    | zero => simp
    | succ m ih => rw [sum_range_succ, ih, fd_succ]; push_cast; ring_nf
  rw [h m, fd_zero, fd_succ]; push_cast; ring

theorem fd_evenExt_sum_nonneg {α : ℝ} (hα : 0 ≤ α) {n : ℕ} (hn : 2 ≤ n) :
    0 ≤ ∑ i ∈ range (2 * n - 2), evenExt (fd α) n i := by
  obtain ⟨m, rfl⟩ : ∃ m, n = m + 2 := ⟨n - 2, by omega⟩
  rw [fd_evenExt_sum, sub_nonneg]
  exact Real.rpow_le_rpow (by positivity) (by push_cast; linarith) hα

/-- Midpoint concavity of `x^α`, `0 ≤ α ≤ 1`. -/
theorem rpow_mid_concave {α : ℝ} (h0 : 0 ≤ α) (h1 : α ≤ 1) {x : ℝ} (hx : 1 ≤ x) :
    (x + 1) ^ α + (x - 1) ^ α ≤ 2 * x ^ α := by
  have hx1 : x + 1 ∈ Set.Ici (0:ℝ) := by simp; linarith
  have hx2 : x - 1 ∈ Set.Ici (0:ℝ) := by simp; linarith
  have h := (Real.concaveOn_rpow h0 h1).2 hx1 hx2 (show (0:ℝ) ≤ 1 / 2 by norm_num) (show (0:ℝ) ≤ 1 / 2 by norm_num)
    (by norm_num)
  simp only [smul_eq_mul] at h
  rw [show 1 / 2 * (x + 1) + 1 / 2 * (x - 1) = x by ring] at h
  linarith

/-- Midpoint convexity of `x^β`, `β ≤ 0`. -/
theorem rpow_mid_convex {β : ℝ} (hβ : β ≤ 0) {x : ℝ} (hx : 1 < x) : 2 * x ^ β ≤ (x + 1) ^ β + (x - 1) ^ β := by
  have hp : 0 < x + 1 := by linarith
  have hm : 0 < x - 1 := by linarith
  have hx0 : 0 < x := by linarith
  have key : x ^ β ≤ (x + 1) ^ (β / 2) * (x - 1) ^ (β / 2) := by
    rw [← Real.mul_rpow hp.le hm.le]
    have : x ^ β = (x * x) ^ (β / 2) := by
      rw [Real.mul_rpow hx0.le hx0.le, ← Real.rpow_add hx0]; congr 1; ring
    rw [this]
    exact Real.rpow_le_rpow_of_nonpos (by positivity) (by nlinarith) (by linarith)
  have e1 : (x + 1) ^ β = (x + 1) ^ (β / 2) * (x + 1) ^ (β / 2) := by rw [← Real.rpow_add hp]; congr 1; ring
  have e2 : (x - 1) ^ β = (x - 1) ^ (β / 2) * (x - 1) ^ (β / 2) := by rw [← Real.rpow_add hm]; congr 1; ring
  rw [e1, e2]
  nlinarith [sq_nonneg ((x + 1) ^ (β / 2) - (x - 1) ^ (β / 2))]

/-- `α ≤ 1`: negative correlations. -/
theorem fd_nonpos {α : ℝ} (h0 : 0 ≤ α) (h1 : α ≤ 1) (i : ℕ) (hi : 1 ≤ i) : fd α i ≤ 0 := by
  obtain ⟨n, rfl⟩ : ∃ n, i = n + 1 := ⟨i - 1, by omega⟩
  rw [fd_succ]
  have := rpow_mid_concave h0 h1 (x := ((n + 1 : ℕ) : ℝ)) (by push_cast; linarith [Nat.cast_nonneg (α := ℝ) n])
  rw [show ((n + 1 : ℕ) : ℝ) + 1 = ((n + 2 : ℕ) : ℝ) by push_cast; ring,
    show ((n + 1 : ℕ) : ℝ) - 1 = (n : ℝ) by push_cast; ring] at this
  linarith

/-- The second difference as a function of a real variable. -/
def fdR (α x : ℝ) : ℝ := (x + 1) ^ α + (x - 1) ^ α - 2 * x ^ α

theorem fd_eq_fdR (α : ℝ) (n : ℕ) : fd α (n + 1) = fdR α ((n : ℝ) + 1) := by
  rw [fd_succ, fdR]; push_cast
  rw [show (n : ℝ) + 1 + 1 = n + 2 by ring, show (n : ℝ) + 1 - 1 = n by ring]

theorem fdR_hasDeriv {α : ℝ} (x : ℝ) (hx : 1 < x) : HasDerivAt (fdR α) (α * fdR (α - 1) x) x := by
  have h1 : HasDerivAt (fun y : ℝ => (y + 1) ^ α) (1 * α * (x + 1) ^ (α - 1)) x :=
    ((hasDerivAt_id x).add_const 1).rpow_const (Or.inl (by simp; linarith))
  have h2 : HasDerivAt (fun y : ℝ => (y - 1) ^ α) (1 * α * (x - 1) ^ (α - 1)) x :=
    ((hasDerivAt_id x).sub_const 1).rpow_const (Or.inl (by simp; linarith))
  have h3 : HasDerivAt (fun y : ℝ => y ^ α) (1 * α * x ^ (α - 1)) x :=
    (hasDerivAt_id x).rpow_const (Or.inl (by simp; linarith))
  have h := (h1.add h2).sub (h3.const_mul 2)
  have he : α * fdR (α - 1) x
      = 1 * α * (x + 1) ^ (α - 1) + 1 * α * (x - 1) ^ (α - 1) - 2 * (1 * α * x ^ (α - 1)) := by
    unfold fdR; ring
  rw [he]
  exact h

theorem fdR_continuousOn {α : ℝ} (hα : 0 ≤ α) : ContinuousOn (fdR α) (Set.Ici 1) := by
  unfold fdR
  refine ContinuousOn.sub (ContinuousOn.add ?_ ?_) (ContinuousOn.mul continuousOn_const ?_)
  · exact ContinuousOn.rpow_const (by fun_prop) fun x _ => Or.inr hα
  · exact ContinuousOn.rpow_const (by fun_prop) fun x _ => Or.inr hα
  · exact ContinuousOn.rpow_const (by fun_prop) fun x _ => Or.inr hα

theorem fdR_antitone {α : ℝ} (h1 : 1 ≤ α) (h2 : α ≤ 2) : AntitoneOn (fdR α) (Set.Ici 1) := by
  refine antitoneOn_of_hasDerivWithinAt_nonpos (convex_Ici 1) (fdR_continuousOn (by linarith))
    (f' := fun x => α * fdR (α - 1) x) ?_ ?_
  · intro x hx
    rw [interior_Ici, Set.mem_Ioi] at hx
    exact (fdR_hasDeriv x hx).hasDerivWithinAt
  · intro x hx
    rw [interior_Ici, Set.mem_Ioi] at hx
    have := rpow_mid_concave (α := α - 1) (by linarith) (by linarith) hx.le
    unfold fdR
    nlinarith

theorem fdR_convex {α : ℝ} (h1 : 1 ≤ α) (h2 : α ≤ 2) : ConvexOn ℝ (Set.Ici 1) (fdR α) := by
  refine convexOn_of_hasDerivWithinAt2_nonneg (convex_Ici 1) (fdR_continuousOn (by linarith))
    (f' := fun x => α * fdR (α - 1) x) (f'' := fun x => α * ((α - 1) * fdR (α - 1 - 1) x)) ?_ ?_ ?_
  · intro x hx
    rw [interior_Ici, Set.mem_Ioi] at hx
    exact (fdR_hasDeriv x hx).hasDerivWithinAt
  · intro x hx
    rw [interior_Ici, Set.mem_Ioi] at hx
    exact ((fdR_hasDeriv x hx).const_mul α).hasDerivWithinAt
  · intro x hx
    rw [interior_Ici, Set.mem_Ioi] at hx
    have := rpow_mid_convex (β := α - 1 - 1) (by linarith) hx
    have h3 : 0 ≤ fdR (α - 1 - 1) x := by unfold fdR; linarith
    exact mul_nonneg (by linarith) (mul_nonneg (by linarith) h3)

/-- `3^α - 4 * 2^α + 7 >= 0` on `[1, 2]`. -/
theorem three_two_seven {α : ℝ} (h2 : α ≤ 2) : 0 ≤ (3:ℝ) ^ α - 4 * (2:ℝ) ^ α + 7 := by
  set v := (2:ℝ) ^ (α - 2) with hv
  have hvpos : 0 < v := by positivity
  have hv1 : v ≤ 1 := Real.rpow_le_one_of_one_le_of_nonpos (by norm_num) (by linarith)
  set p := Real.logb 2 3 with hp
  have hp1 : 1 ≤ p := by
    rw [hp, Real.le_logb_iff_rpow_le (by norm_num) (by norm_num)]; norm_num
  have hp2 : p ≤ 16 / 9 := by
    rw [hp, Real.logb_le_iff_le_rpow (by norm_num) (by norm_num)]
    have h9 : ((2:ℝ) ^ ((16:ℝ) / 9)) ^ (9:ℕ) = 2 ^ (16:ℕ) := by
      rw [← Real.rpow_natCast, ← Real.rpow_mul (by norm_num), ← Real.rpow_natCast]; norm_num
    by_contra hc
    push Not at hc
    have := pow_lt_pow_left₀ hc (by positivity) (n := 9) (by norm_num)
    rw [h9] at this
    norm_num at this
  have e2 : (2:ℝ) ^ α = 4 * v := by
    rw [hv, show α = 2 + (α - 2) by ring, Real.rpow_add (by norm_num)]; norm_num
  have e3 : (3:ℝ) ^ α = 9 * v ^ p := by
    have h3 : (3:ℝ) = 2 ^ p := by rw [hp, Real.rpow_logb (by norm_num) (by norm_num) (by norm_num)]
    have : (3:ℝ) ^ α = 3 ^ (2:ℝ) * 3 ^ (α - 2) := by rw [← Real.rpow_add (by norm_num)]; congr 1; ring
    rw [this]
    have h4 : (3:ℝ) ^ (α - 2) = v ^ p := by
      conv_lhs => rw [h3]
      rw [hv, ← Real.rpow_mul (by norm_num), ← Real.rpow_mul (by norm_num), mul_comm]
    rw [h4]; norm_num
  have hb := one_add_mul_self_le_rpow_one_add (s := v - 1) (by linarith) hp1
  rw [add_sub_cancel] at hb
  rw [e2, e3]
  nlinarith

/-- `1 ≤ α ≤ 2`: the second differences are convex ... -/
theorem fd_convex {α : ℝ} (h1 : 1 ≤ α) (h2 : α ≤ 2) (i : ℕ) : 2 * fd α (i + 1) ≤ fd α i + fd α (i + 2) := by
  cases i with
  | zero =>
    rw [zero_add, fd_succ α 1, fd_succ α 0, fd_zero]
    have := three_two_seven h2
    have h0 : (0:ℝ) ^ α = 0 := Real.zero_rpow (by linarith)
    push_cast
    rw [Real.one_rpow, h0]
    norm_num at this ⊢
    linarith
  | succ i =>
    rw [show i + 1 + 2 = (i + 2) + 1 by ring, fd_eq_fdR, fd_eq_fdR, fd_eq_fdR]
    have hi : (0:ℝ) ≤ i := Nat.cast_nonneg i
    have hx1 : (i : ℝ) + 1 ∈ Set.Ici (1:ℝ) := by simp
    have hx2 : ((i + 2 : ℕ) : ℝ) + 1 ∈ Set.Ici (1:ℝ) := by push_cast; simp; linarith
    have h := (fdR_convex h1 h2).2 hx1 hx2 (show (0:ℝ) ≤ 1 / 2 by norm_num) (show (0:ℝ) ≤ 1 / 2 by norm_num) (by norm_num)
    simp only [smul_eq_mul] at h
    rw [show 1 / 2 * ((i : ℝ) + 1) + 1 / 2 * (((i + 2 : ℕ) : ℝ) + 1) = ((i + 1 : ℕ) : ℝ) + 1 by push_cast; ring] at h
    linarith

/-- ... and non-increasing. -/
theorem fd_antitone {α : ℝ} (h1 : 1 ≤ α) (h2 : α ≤ 2) (i : ℕ) : fd α (i + 1) ≤ fd α i := by
  cases i with
  | zero =>
    rw [zero_add, fd_succ α 0, fd_zero]
    have h0 : (0:ℝ) ^ α = 0 := Real.zero_rpow (by linarith)
    have h4 : (2:ℝ) ^ α ≤ 4 := by
      calc (2:ℝ) ^ α ≤ 2 ^ (2:ℝ) := Real.rpow_le_rpow_of_exponent_le (by norm_num) h2
        _ = 4 := by norm_num
    push_cast
    rw [Real.one_rpow, h0]
    norm_num
    linarith
  | succ i =>
    rw [fd_eq_fdR, fd_eq_fdR]
    have hi : (0:ℝ) ≤ i := Nat.cast_nonneg i
    exact fdR_antitone h1 h2 (by simp) (by push_cast; simp; linarith) (by push_cast; linarith)

/-- The embedding of the fGn autocovariance has a non-negative spectrum for every `0 ≤ H ≤ 1`. -/
theorem fd_spectrum_nonneg {α : ℝ} (h0 : 0 ≤ α) (h2 : α ≤ 2) {n : ℕ} (hn : 2 ≤ n) (k : ℕ) (hk : k < 2 * n - 2) :
    0 ≤ cosSpectrum ((List.range n).map (fd α)) k := by
  rcases le_total α 1 with h1 | h1
  · exact dominance _ hn (fun i hi _ => fd_nonpos h0 h1 i hi) (fd_evenExt_sum_nonneg h0 hn) k
  · refine polya _ hn (fun i _ => fd_convex h1 h2 i) ?_ (fd_evenExt_sum_nonneg h0 hn) k hk
    obtain ⟨m, rfl⟩ : ∃ m, n = m + 2 := ⟨n - 2, by omega⟩
    exact fd_antitone h1 h2 m

end

end MFA
