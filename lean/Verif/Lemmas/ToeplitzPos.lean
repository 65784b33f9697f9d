import Verif.Lemmas.Cholesky
import Verif.Lemmas.FgnCov

/-!
# Toeplitz matrices with a positive spectrum of the embedding are positive definite; fractional Gaussian noise
-/

namespace MFA

open Classical Finset Matrix

noncomputable section

/-- Modulus squared of the (unnormalised) Fourier coefficient `k` of `v`, at frequency `2 pi k / M`. -/
def fourierSq (M : ℕ) {n : ℕ} (v : Fin n → ℝ) (k : ℕ) : ℝ :=
  (∑ i, v i * Real.cos (2 * Real.pi * (k * (i : ℕ)) / M)) ^ 2 + (∑ i, v i * Real.sin (2 * Real.pi * (k * (i : ℕ)) / M)) ^ 2

theorem fourierSq_nonneg (M : ℕ) {n : ℕ} (v : Fin n → ℝ) (k : ℕ) : 0 ≤ fourierSq M v k := by unfold fourierSq; positivity

theorem fourierSq_eq (M : ℕ) {n : ℕ} (v : Fin n → ℝ) (k : ℕ) :
    fourierSq M v k = ∑ i, ∑ j, v i * v j * Real.cos (2 * Real.pi * ((k : ℝ) * (((i : ℕ) : ℝ) - (j : ℕ))) / M) := by
  unfold fourierSq
  rw [sq, sq, sum_mul_sum, sum_mul_sum, ← sum_add_distrib]
  refine sum_congr rfl fun i _ => ?_
  rw [← sum_add_distrib]
  refine sum_congr rfl fun j _ => ?_
  rw [show 2 * Real.pi * ((k : ℝ) * (((i : ℕ) : ℝ) - (j : ℕ))) / M
    = 2 * Real.pi * (k * (i : ℕ)) / M - 2 * Real.pi * (k * (j : ℕ)) / M by ring, Real.cos_sub]
  ring

theorem toeplitz_form (cov : List ℝ) (h : 2 ≤ cov.length) (v : Fin cov.length → ℝ) :
    ((2 * cov.length - 2 : ℕ) : ℝ) * (v ⬝ᵥ toeplitz cov *ᵥ v)
      = ∑ k ∈ range (2 * cov.length - 2), cosSpectrum cov k * fourierSq (2 * cov.length - 2) v k := by
  simp_rw [fourierSq_eq, mul_sum]
  rw [sum_comm, dotProduct, mul_sum]
  refine sum_congr rfl fun i _ => ?_
  rw [sum_comm, mulVec, dotProduct, mul_sum, mul_sum]
  refine sum_congr rfl fun j _ => ?_
  have := spectrum_inversion cov h i j i.isLt j.isLt
  have e : ∀ k ∈ range (2 * cov.length - 2), cosSpectrum cov k * (v i * v j
      * Real.cos (2 * Real.pi * ((k : ℝ) * (((i : ℕ) : ℝ) - (j : ℕ))) / ((2 * cov.length - 2 : ℕ) : ℝ)))
      = v i * v j * (cosSpectrum cov k
      * Real.cos (2 * Real.pi * ((k : ℝ) * (((i : ℕ) : ℝ) - (j : ℕ))) / ((2 * cov.length - 2 : ℕ) : ℝ))) := fun k _ => by ring
  rw [sum_congr rfl e, ← mul_sum, this, toeplitz]
  ring

theorem toeplitz_symm (cov : List ℝ) : (toeplitz cov).IsHermitian := by
  ext i j
  simp [toeplitz]
  congr 1
  rw [← Int.natAbs_neg]; congr 2; ring

/-- Parseval for the unit covariance. -/
theorem fourier_parseval {N : ℕ} (hN : 2 ≤ N) (v : Fin N → ℝ) :
    ((2 * N - 2 : ℕ) : ℝ) * ∑ i, v i ^ 2 = ∑ k ∈ range (2 * N - 2), fourierSq (2 * N - 2) v k := by
  obtain ⟨cov, hcov⟩ : ∃ cov : List ℝ, cov = (List.range N).map fun i => if i = 0 then 1 else 0 := ⟨_, rfl⟩
  have hlen : cov.length = N := by simp [hcov]
  have hget : ∀ i, cov.getD i 0 = if i = 0 then 1 else 0 := by
    intro i
    rw [hcov, List.getD_eq_getElem?_getD, List.getElem?_map]
    rcases Nat.lt_or_ge i N with h | h
    · rw [List.getElem?_range h]; rfl
    · rw [List.getElem?_eq_none (by simpa using h), if_neg (by omega)]; rfl
  subst hlen
  have h := toeplitz_form cov hN v
  have hspec : ∀ k, cosSpectrum cov k = 1 := by
    intro k
    unfold cosSpectrum
    rw [sum_eq_single 0]
    · rw [hget]; simp
    · intro i hi hi0
      have hi' : i < 2 * cov.length - 2 := by simpa using hi
      rw [hget, if_neg (by omega), zero_mul]
    · intro h0; simp at h0; omega
  have hT : toeplitz cov = 1 := by
    ext i j
    rw [toeplitz, hget, Matrix.one_apply]
    by_cases hij : i = j
    · subst hij; simp
    · rw [if_neg hij, if_neg]
      intro hc
      apply hij
      ext; omega
  rw [hT, one_mulVec] at h
  simp_rw [hspec, one_mul] at h
  rw [← h, dotProduct]
  congr 1
  refine sum_congr rfl fun i _ => sq _

/-- A strictly positive spectrum makes the Toeplitz matrix positive definite. -/
theorem toeplitz_posDef (cov : List ℝ) (h : 2 ≤ cov.length) (hpos : ∀ k < 2 * cov.length - 2, 0 < cosSpectrum cov k) :
    (toeplitz cov).PosDef := by
  refine Matrix.PosDef.of_dotProduct_mulVec_pos (toeplitz_symm cov) ?_
  intro v hv
  have hM : (0 : ℝ) < ((2 * cov.length - 2 : ℕ) : ℝ) := by exact_mod_cast (by omega : 0 < 2 * cov.length - 2)
  rw [star_trivial]
  refine pos_of_mul_pos_right ?_ hM.le
  rw [toeplitz_form cov h v]
  have hne : ∃ i, v i ≠ 0 := by by_contra hc; push Not at hc; exact hv (funext hc)
  have hsq : 0 < ∑ i, v i ^ 2 := by
    obtain ⟨i, hi⟩ := hne
    exact sum_pos' (fun j _ => sq_nonneg _) ⟨i, mem_univ i, by positivity⟩
  have hS : 0 < ∑ k ∈ range (2 * cov.length - 2), fourierSq (2 * cov.length - 2) v k := by
    rw [← fourier_parseval h v]; positivity
  obtain ⟨k, hk, hk'⟩ := (sum_pos_iff_of_nonneg fun k _ => fourierSq_nonneg _ v k).mp hS
  refine sum_pos' (fun k hk => mul_nonneg (hpos k (by simpa using hk)).le (fourierSq_nonneg _ v k))
    ⟨k, hk, mul_pos (hpos k (by simpa using hk)) hk'⟩

theorem three_two_seven_pos {α : ℝ} (h2 : α < 2) : 0 < (3:ℝ) ^ α - 4 * (2:ℝ) ^ α + 7 := by
  set v := (2:ℝ) ^ (α - 2) with hv
  have hvpos : 0 < v := by positivity
  have hv1 : v < 1 := Real.rpow_lt_one_of_one_lt_of_neg (by norm_num) (by linarith)
  set p := Real.logb 2 3 with hp
  have hp1 : 1 ≤ p := by
    rw [hp, Real.le_logb_iff_rpow_le (by norm_num) (by norm_num)]; norm_num
  have hp2 : p < 16 / 9 := by
    rw [hp, Real.logb_lt_iff_lt_rpow (by norm_num) (by norm_num)]
    have h9 : ((2:ℝ) ^ ((16:ℝ) / 9)) ^ (9:ℕ) = 2 ^ (16:ℕ) := by
      rw [← Real.rpow_natCast, ← Real.rpow_mul (by norm_num), ← Real.rpow_natCast]; norm_num
    by_contra hc
    push Not at hc
    have := pow_le_pow_left₀ (by positivity) hc 9
    rw [h9] at this
    norm_num at this
  have e2 : (2:ℝ) ^ α = 4 * v := by
    rw [hv, show α = 2 + (α - 2) by ring, Real.rpow_add (by norm_num)]; norm_num
  have e3 : (3:ℝ) ^ α = 9 * v ^ p := by
    have h3 : (3:ℝ) = 2 ^ p := by rw [hp, Real.rpow_logb (by norm_num) (by norm_num) (by norm_num)]
    have : (3:ℝ) ^ α = 3 ^ (2:ℝ) * 3 ^ (α - 2) := by rw [← Real.rpow_add (by norm_num)]; congr 1; ring
    rw [this]
    have h4 : (3:ℝ) ^ (α - 2) = v ^ p := by
      conv_lhs => rw [h3]
      rw [hv, ← Real.rpow_mul (by norm_num), ← Real.rpow_mul (by norm_num), mul_comm]
    rw [h4]; norm_num
  have hb := one_add_mul_self_le_rpow_one_add (s := v - 1) (by linarith) hp1
  rw [add_sub_cancel] at hb
  rw [e2, e3]
  nlinarith

/-- Strict version of Pólya's criterion: strictness at the origin is enough. -/
theorem polya_strict (a : ℕ → ℝ) {n : ℕ} (hn : 2 ≤ n) (hconv : ∀ i, 1 ≤ i → i + 2 < n → 2 * a (i + 1) ≤ a i + a (i + 2))
    (hconv0 : 3 ≤ n → 2 * a 1 < a 0 + a 2) (hlast0 : a 1 < a 0) (hlast : 3 ≤ n → a (n - 1) ≤ a (n - 2))
    (hsum : 0 < ∑ i ∈ range (2 * n - 2), evenExt a n i) (k : ℕ) (hk : k < 2 * n - 2) :
    0 < cosSpectrum ((List.range n).map a) k := by
  rcases Nat.eq_zero_or_pos k with rfl | hkpos
  · rw [cosSpectrum_map a hn]; simpa using hsum
  -- lower the value at the origin a little
  obtain ⟨ε, hε, hε1, hε2⟩ : ∃ ε > 0, (3 ≤ n → 2 * a 1 ≤ a 0 - ε + a 2) ∧ a 1 ≤ a 0 - ε := by
    by_cases h3 : 3 ≤ n
    · have h := hconv0 h3
      refine ⟨min (a 0 + a 2 - 2 * a 1) (a 0 - a 1), lt_min (by linarith) (by linarith), fun _ => ?_, ?_⟩
      · linarith [min_le_left (a 0 + a 2 - 2 * a 1) (a 0 - a 1)]
      · linarith [min_le_right (a 0 + a 2 - 2 * a 1) (a 0 - a 1)]
    · exact ⟨a 0 - a 1, by linarith, fun h => absurd h h3, by linarith⟩
  set b : ℕ → ℝ := fun i => if i = 0 then a 0 - ε else a i with hb
  have hb0 : b 0 = a 0 - ε := by simp [hb]
  have hbs : ∀ i, b (i + 1) = a (i + 1) := fun i => by simp [hb]
  have hbp : 0 ≤ cosSpectrum ((List.range n).map b) k := by
    refine polya_pos b hn ?_ ?_ k hkpos hk
    · intro i hi
      cases i with
      | zero => rw [hbs, hb0, hbs]; exact hε1 (by omega)
      | succ i => rw [hbs, hbs, show i + 1 + 2 = (i + 2) + 1 by ring, hbs]; exact hconv (i + 1) (by omega) hi
    · obtain ⟨m, rfl⟩ : ∃ m, n = m + 2 := ⟨n - 2, by omega⟩
      cases m with
      | zero => show b 1 ≤ b 0; rw [hb0, hbs]; exact hε2
      | succ m =>
        rw [show m + 1 + 2 - 1 = (m + 1) + 1 by omega, show m + 1 + 2 - 2 = m + 1 by omega, hbs, hbs]
        exact hlast (by omega)
  have hdiff : cosSpectrum ((List.range n).map b) k = cosSpectrum ((List.range n).map a) k - ε := by
    rw [cosSpectrum_map b hn, cosSpectrum_map a hn]
    have hM : 0 < 2 * n - 2 := by omega
    rw [sum_range_eq_add_Ico _ hM, sum_range_eq_add_Ico _ hM]
    have e : ∀ i ∈ Ico 1 (2 * n - 2), evenExt b n i * Real.cos (2 * Real.pi * k / ((2 * n - 2 : ℕ) : ℝ) * i)
        = evenExt a n i * Real.cos (2 * Real.pi * k / ((2 * n - 2 : ℕ) : ℝ) * i) := by
      intro i hi
      rw [mem_Ico] at hi
      rw [evenExt_le b hn (by omega), evenExt_le _ hn (by omega), hb]
      simp only []
      rw [if_neg (by omega)]
    rw [sum_congr rfl e, evenExt_le b hn (by omega), evenExt_le _ hn (by omega), hb]
    simp
    ring
  linarith

/-- The spectrum is strictly positive for `0 < α < 2` (`0 < H < 1`). -/
theorem fd_spectrum_pos {α : ℝ} (h0 : 0 < α) (h2 : α < 2) {n : ℕ} (hn : 2 ≤ n) (k : ℕ) (hk : k < 2 * n - 2) :
    0 < cosSpectrum ((List.range n).map (fd α)) k := by
  obtain ⟨m, rfl⟩ : ∃ m, n = m + 2 := ⟨n - 2, by omega⟩
  have hsum : 0 < ∑ i ∈ range (2 * (m + 2) - 2), evenExt (fd α) (m + 2) i := by
    rw [fd_evenExt_sum, sub_pos]
    exact Real.rpow_lt_rpow (by positivity) (by push_cast; linarith) h0
  rcases le_total α 1 with h1 | h1
  · -- dominance
    refine lt_of_lt_of_le hsum ?_
    rw [cosSpectrum_map (fd α) hn]
    refine sum_le_sum fun i hi => ?_
    have hi' : i < 2 * (m + 2) - 2 := by simpa using hi
    rcases Nat.eq_zero_or_pos i with rfl | hpos
    · simp
    · rw [evenExt_le _ hn hi'.le]
      have h1 := fd_nonpos h0.le h1 (min i (2 * (m + 2) - 2 - i)) (by omega)
      nlinarith [Real.cos_le_one (2 * Real.pi * k / ((2 * (m + 2) - 2 : ℕ) : ℝ) * i)]
  · have h27 := three_two_seven_pos h2
    have h4 : (2:ℝ) ^ α < 4 := by
      calc (2:ℝ) ^ α < 2 ^ (2:ℝ) := Real.rpow_lt_rpow_of_exponent_lt (by norm_num) h2
        _ = 4 := by norm_num
    have hz0 : (0:ℝ) ^ α = 0 := Real.zero_rpow (by linarith)
    have f0 : fd α 0 = 2 := by rw [fd_zero]; push_cast; rw [Real.one_rpow, hz0]; ring
    have f1 : fd α 1 = (2:ℝ) ^ α - 2 := by
      have := fd_succ α 0
      rw [zero_add] at this
      rw [this]; push_cast; rw [hz0, Real.one_rpow]; norm_num
    have f2 : fd α 2 = (3:ℝ) ^ α + 1 - 2 * (2:ℝ) ^ α := by
      have := fd_succ α 1
      rw [show 1 + 1 = 2 by rfl] at this
      rw [this]; push_cast; rw [Real.one_rpow]
    refine polya_strict _ hn (fun i _ _ => fd_convex h1 h2.le i) (fun _ => ?_) ?_ (fun _ => ?_) hsum k hk
    · rw [f0, f1, f2]; linarith
    · rw [f0, f1]; linarith
    · exact fd_antitone h1 h2.le m

end

end MFA
