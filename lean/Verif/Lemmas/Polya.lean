import Verif.Lemmas.Embed

/-!
# Two sufficient conditions for a non-negative spectrum of the embedding

`polya`: convex sequences; `dominance`: diagonal dominance.
-/

namespace MFA

open Classical Finset

noncomputable section

theorem periodic_sum {M : ℕ} (F : ℕ → ℝ) (h : F M = F 0) : ∑ i ∈ range M, F (i + 1) = ∑ i ∈ range M, F i := by
  have h1 := sum_range_succ' F M
  have h2 := sum_range_succ F M
  linarith

/-- Summation by parts for a periodic sequence: the second differences against cosines. -/
theorem second_difference {M : ℕ} (c : ℕ → ℝ) (hc : ∀ i, c (i + M) = c i) (k : ℕ) (hM : M ≠ 0) :
    2 * (1 - Real.cos (2 * Real.pi * k / M)) * ∑ i ∈ range M, c i * Real.cos (2 * Real.pi * k / M * i)
      = ∑ i ∈ range M, (c i - 2 * c (i + 1) + c (i + 2)) * (1 - Real.cos (2 * Real.pi * k / M * ((i + 1 : ℕ) : ℝ))) := by
  set θ := 2 * Real.pi * k / M with hθ
  have hM' : (M : ℝ) ≠ 0 := by exact_mod_cast hM
  have hcos : ∀ i : ℕ, Real.cos (θ * ((i + M : ℕ) : ℝ)) = Real.cos (θ * i) := by
    intro i
    have : θ * ((i + M : ℕ) : ℝ) = θ * i + k * (2 * Real.pi) := by rw [hθ]; push_cast; field_simp
    rw [this, Real.cos_add_nat_mul_two_pi]
  have hc0 := hc 0
  have hc1 := hc 1
  have hC0 := hcos 0
  have hC1 := hcos 1
  rw [zero_add] at hc0 hC0
  rw [add_comm 1 M] at hc1 hC1
  -- the sums of the second differences alone
  have e1 : ∑ i ∈ range M, c (i + 1) = ∑ i ∈ range M, c i := periodic_sum c hc0
  have e2 : ∑ i ∈ range M, c (i + 2) = ∑ i ∈ range M, c i := by
    rw [← e1]; exact periodic_sum (fun i => c (i + 1)) hc1
  -- products
  have e3 : ∑ i ∈ range M, c (i + 1) * Real.cos (θ * ((i + 1 : ℕ) : ℝ)) = ∑ i ∈ range M, c i * Real.cos (θ * i) :=
    periodic_sum (fun i => c i * Real.cos (θ * i)) (by rw [hc0, hC0])
  have e4 : ∑ i ∈ range M, c (i + 2) * Real.cos (θ * ((i + 1 : ℕ) : ℝ)) = ∑ i ∈ range M, c (i + 1) * Real.cos (θ * i) :=
    periodic_sum (fun i => c (i + 1) * Real.cos (θ * i)) (by rw [hc1, hC0])
  have e5 : ∑ i ∈ range M, c (i + 1) * Real.cos (θ * ((i + 2 : ℕ) : ℝ)) = ∑ i ∈ range M, c i * Real.cos (θ * ((i + 1 : ℕ) : ℝ)) :=
    periodic_sum (fun i => c i * Real.cos (θ * ((i + 1 : ℕ) : ℝ))) (by rw [hc0, hC1])
  have e6 : ∑ i ∈ range M, c (i + 1) * Real.cos (θ * ((i + 2 : ℕ) : ℝ)) + ∑ i ∈ range M, c (i + 1) * Real.cos (θ * i)
      = 2 * Real.cos θ * ∑ i ∈ range M, c (i + 1) * Real.cos (θ * ((i + 1 : ℕ) : ℝ)) := by
    rw [← sum_add_distrib, mul_sum]
    refine sum_congr rfl fun i _ => ?_
    have h1 : θ * ((i + 2 : ℕ) : ℝ) = θ * ((i + 1 : ℕ) : ℝ) + θ := by push_cast; ring
    have h2 : θ * (i : ℝ) = θ * ((i + 1 : ℕ) : ℝ) - θ := by push_cast; ring
    rw [h1, h2, Real.cos_add, Real.cos_sub]; ring
  have e7 : ∑ i ∈ range M, (c i - 2 * c (i + 1) + c (i + 2)) * (1 - Real.cos (θ * ((i + 1 : ℕ) : ℝ)))
      = (∑ i ∈ range M, c i - 2 * ∑ i ∈ range M, c (i + 1) + ∑ i ∈ range M, c (i + 2))
        - (∑ i ∈ range M, c i * Real.cos (θ * ((i + 1 : ℕ) : ℝ))
          - 2 * ∑ i ∈ range M, c (i + 1) * Real.cos (θ * ((i + 1 : ℕ) : ℝ))
          + ∑ i ∈ range M, c (i + 2) * Real.cos (θ * ((i + 1 : ℕ) : ℝ))) := by
    rw [mul_sum, mul_sum, ← sum_sub_distrib, ← sum_add_distrib, ← sum_sub_distrib, ← sum_add_distrib, ← sum_sub_distrib]
    refine sum_congr rfl fun i _ => by ring
  rw [e7, e1, e2, e4, ← e5, e3]
  rw [e3] at e6
  linarith

/-- The even periodic extension of `a 0, ..., a (n-1)`. -/
def evenExt (a : ℕ → ℝ) (n i : ℕ) : ℝ := a (min (i % (2 * n - 2)) (2 * n - 2 - i % (2 * n - 2)))

theorem evenExt_periodic (a : ℕ → ℝ) (n i : ℕ) : evenExt a n (i + (2 * n - 2)) = evenExt a n i := by
  unfold evenExt; rw [Nat.add_mod_right]

theorem evenExt_le (a : ℕ → ℝ) {n i : ℕ} (_hn : 2 ≤ n) (hi : i ≤ 2 * n - 2) : evenExt a n i = a (min i (2 * n - 2 - i)) := by
  unfold evenExt
  rcases Nat.lt_or_ge i (2 * n - 2) with h | h
  · rw [Nat.mod_eq_of_lt h]
  · have : i = 2 * n - 2 := by omega
    rw [this, Nat.mod_self]; simp

theorem cosSpectrum_map (a : ℕ → ℝ) {n : ℕ} (hn : 2 ≤ n) (k : ℕ) :
    cosSpectrum ((List.range n).map a) k
      = ∑ i ∈ range (2 * n - 2), evenExt a n i * Real.cos (2 * Real.pi * k / ((2 * n - 2 : ℕ) : ℝ) * i) := by
  unfold cosSpectrum
  rw [List.length_map, List.length_range]
  refine sum_congr rfl fun i hi => ?_
  have hi' : i < 2 * n - 2 := by simpa using hi
  rw [evenExt_le a hn hi'.le]
  have hget : ((List.range n).map a).getD (min i (2 * n - 2 - i)) 0 = a (min i (2 * n - 2 - i)) := by
    rw [List.getD_eq_getElem?_getD, List.getElem?_map, List.getElem?_range (by omega)]; rfl
  rw [hget]; congr 2; ring

theorem one_sub_cos_pos {M k : ℕ} (hk : 0 < k) (hkM : k < M) : 0 < 1 - Real.cos (2 * Real.pi * k / M) := by
  have hM : (0:ℝ) < M := by exact_mod_cast (by omega : 0 < M)
  have h1 : (0:ℝ) < k := by exact_mod_cast hk
  have h2 : (k:ℝ) < M := by exact_mod_cast hkM
  have hpi := Real.pi_pos
  have hne : Real.cos (2 * Real.pi * k / M) ≠ 1 := by
    intro h
    rw [Real.cos_eq_one_iff_of_lt_of_lt] at h
    · have : 0 < 2 * Real.pi * k / M := by positivity
      linarith
    · have : 0 < 2 * Real.pi * k / M := by positivity
      linarith
    · rw [div_lt_iff₀ hM]; nlinarith
  have := Real.cos_le_one (2 * Real.pi * k / M)
  exact sub_pos.mpr (lt_of_le_of_ne this hne)

/-- Pólya's criterion at the non-zero frequencies: a convex sequence with non-increasing end. -/
theorem polya_pos (a : ℕ → ℝ) {n : ℕ} (hn : 2 ≤ n) (hconv : ∀ i, i + 2 < n → 2 * a (i + 1) ≤ a i + a (i + 2))
    (hlast : a (n - 1) ≤ a (n - 2)) (k : ℕ) (hkpos : 0 < k) (hk : k < 2 * n - 2) :
    0 ≤ cosSpectrum ((List.range n).map a) k := by
  rw [cosSpectrum_map a hn]
  set M := 2 * n - 2 with hM
  have hM0 : M ≠ 0 := by omega
  have hpos := one_sub_cos_pos hkpos hk
  have h2 := second_difference (evenExt a n) (evenExt_periodic a n) k hM0
  have h3 : 0 ≤ ∑ i ∈ range M, (evenExt a n i - 2 * evenExt a n (i + 1) + evenExt a n (i + 2))
      * (1 - Real.cos (2 * Real.pi * k / M * ((i + 1 : ℕ) : ℝ))) := by
    refine sum_nonneg fun i hi => ?_
    have hi' : i < M := by simpa using hi
    rcases Nat.lt_or_ge (i + 1) M with h | h
    · refine mul_nonneg ?_ (by linarith [Real.cos_le_one (2 * Real.pi * k / M * ((i + 1 : ℕ) : ℝ))])
      rw [evenExt_le a hn (by omega), evenExt_le a hn (by omega), evenExt_le a hn (by omega)]
      rcases Nat.lt_trichotomy (i + 1) (n - 1) with hj | hj | hj
      · rw [show min i (2 * n - 2 - i) = i by omega, show min (i + 1) (2 * n - 2 - (i + 1)) = i + 1 by omega,
          show min (i + 2) (2 * n - 2 - (i + 2)) = i + 2 by omega]
        linarith [hconv i (by omega)]
      · rw [show min i (2 * n - 2 - i) = n - 2 by omega, show min (i + 1) (2 * n - 2 - (i + 1)) = n - 1 by omega,
          show min (i + 2) (2 * n - 2 - (i + 2)) = n - 2 by omega]
        linarith
      · have := hconv (2 * n - 2 - (i + 2)) (by omega)
        rw [show min i (2 * n - 2 - i) = 2 * n - 2 - (i + 2) + 2 by omega,
          show min (i + 1) (2 * n - 2 - (i + 1)) = 2 * n - 2 - (i + 2) + 1 by omega,
          show min (i + 2) (2 * n - 2 - (i + 2)) = 2 * n - 2 - (i + 2) by omega]
        linarith
    · have : i + 1 = M := by omega
      have hM' : (M : ℝ) ≠ 0 := by exact_mod_cast hM0
      rw [this, div_mul_cancel₀ _ hM', show 2 * Real.pi * (k : ℝ) = k * (2 * Real.pi) by ring, Real.cos_nat_mul_two_pi]
      simp
  rw [← h2] at h3
  exact nonneg_of_mul_nonneg_right h3 (by linarith)

/-- Pólya's criterion for the circulant embedding: a convex sequence with non-increasing end and non-negative sum. -/
theorem polya (a : ℕ → ℝ) {n : ℕ} (hn : 2 ≤ n) (hconv : ∀ i, i + 2 < n → 2 * a (i + 1) ≤ a i + a (i + 2))
    (hlast : a (n - 1) ≤ a (n - 2)) (hsum : 0 ≤ ∑ i ∈ range (2 * n - 2), evenExt a n i) (k : ℕ) (hk : k < 2 * n - 2) :
    0 ≤ cosSpectrum ((List.range n).map a) k := by
  rcases Nat.eq_zero_or_pos k with rfl | hkpos
  · rw [cosSpectrum_map a hn]; simpa using hsum
  · exact polya_pos a hn hconv hlast k hkpos hk

/-- Diagonal dominance: non-positive off-diagonal values and a non-negative sum. -/
theorem dominance (a : ℕ → ℝ) {n : ℕ} (hn : 2 ≤ n) (hneg : ∀ i, 1 ≤ i → i < n → a i ≤ 0)
    (hsum : 0 ≤ ∑ i ∈ range (2 * n - 2), evenExt a n i) (k : ℕ) : 0 ≤ cosSpectrum ((List.range n).map a) k := by
  rw [cosSpectrum_map a hn]
  refine hsum.trans (sum_le_sum fun i hi => ?_)
  have hi' : i < 2 * n - 2 := by simpa using hi
  rcases Nat.eq_zero_or_pos i with rfl | hpos
  · simp
  · rw [evenExt_le a hn hi'.le]
    have h1 := hneg (min i (2 * n - 2 - i)) (by omega) (by omega)
    nlinarith [Real.cos_le_one (2 * Real.pi * k / ((2 * n - 2 : ℕ) : ℝ) * i)]

/-- The sum over the even extension. -/
theorem evenExt_sum (a : ℕ → ℝ) (m : ℕ) :
    ∑ i ∈ range (2 * (m + 2) - 2), evenExt a (m + 2) i = a 0 + 2 * ∑ i ∈ range m, a (i + 1) + a (m + 1) := by
  have h1 : ∑ i ∈ range (2 * (m + 2) - 2), evenExt a (m + 2) i
      = ∑ i ∈ range (2 * m + 2), a (min i (2 * m + 2 - i)) := by
    rw [show 2 * (m + 2) - 2 = 2 * m + 2 by omega]
    refine sum_congr rfl fun i hi => ?_
    have hi' : i < 2 * m + 2 := by simpa using hi
    rw [evenExt_le a (by omega) (by omega), show 2 * (m + 2) - 2 = 2 * m + 2 by omega]
  rw [h1, show 2 * m + 2 = (m + 1) + (m + 1) by ring, sum_range_add, sum_range_succ', sum_range_succ' _ m]
  have h2 : ∑ i ∈ range m, a (min (i + 1) (m + 1 + (m + 1) - (i + 1))) = ∑ i ∈ range m, a (i + 1) :=
    sum_congr rfl fun i hi => by
      have : i < m := by simpa using hi
      congr 1; omega
  have h3 : ∑ i ∈ range m, a (min (m + 1 + (i + 1)) (m + 1 + (m + 1) - (m + 1 + (i + 1)))) = ∑ i ∈ range m, a (i + 1) := by
    rw [← sum_range_reflect]
    refine sum_congr rfl fun i hi => ?_
    have : i < m := by simpa using hi
    congr 1; omega
  rw [h2, h3]
  simp only [Nat.add_zero, Nat.zero_le, min_eq_left]
  rw [show min (m + 1) (m + 1 + (m + 1) - (m + 1)) = m + 1 by omega]
  ring

end

end MFA
