import Verif.Model.Simul
import Mathlib.RingTheory.RootsOfUnity.Complex
import Mathlib.Tactic.Ring
import Mathlib.Tactic.FieldSimp
import Mathlib.Tactic.Linarith

/-!
# Discrete Fourier transforms: orthogonality, inversion, convolution, and the circulant embedding
-/

namespace MFA

open Classical Finset

noncomputable section

/-- `exp(2 i pi m / M)`. -/
def ee (M : ℕ) (m : ℤ) : ℂ := Complex.exp (2 * Real.pi * Complex.I * m / M)

theorem ee_zero (M : ℕ) : ee M 0 = 1 := by simp [ee]

theorem ee_add (M : ℕ) (a b : ℤ) : ee M (a + b) = ee M a * ee M b := by
  rw [ee, ee, ee, ← Complex.exp_add]; congr 1; push_cast; ring

theorem ee_neg_mul (M : ℕ) (a : ℤ) : ee M (-a) * ee M a = 1 := by rw [← ee_add, neg_add_cancel, ee_zero]

theorem ee_pow (M : ℕ) (a : ℤ) (k : ℕ) : ee M a ^ k = ee M (k * a) := by
  induction k with
  | zero => simp [ee_zero]
  | succ k ih => rw [pow_succ, ih, ← ee_add]; congr 1; push_cast; ring

theorem ee_mul_M {M : ℕ} (hM : M ≠ 0) (t : ℤ) : ee M (M * t) = 1 := by
  rw [ee, Complex.exp_eq_one_iff]
  refine ⟨t, ?_⟩
  have : (M : ℂ) ≠ 0 := by exact_mod_cast hM
  push_cast; field_simp

theorem ee_periodic {M : ℕ} (hM : M ≠ 0) (a t : ℤ) : ee M (a + M * t) = ee M a := by
  rw [ee_add, ee_mul_M hM, mul_one]

theorem ee_eq_one_iff {M : ℕ} (hM : M ≠ 0) (a : ℤ) : ee M a = 1 ↔ (M : ℤ) ∣ a := by
  constructor
  · intro h
    rw [ee, Complex.exp_eq_one_iff] at h
    obtain ⟨n, hn⟩ := h
    have hM' : (M : ℂ) ≠ 0 := by exact_mod_cast hM
    have h2 : (2 * Real.pi * Complex.I : ℂ) ≠ 0 := Complex.two_pi_I_ne_zero
    have : (a : ℂ) = n * M := by
      have h3 : (2 * Real.pi * Complex.I : ℂ) * a = (2 * Real.pi * Complex.I) * (n * M) := by
        field_simp at hn
        linear_combination (Complex.I * Real.pi * 2) * hn
      exact mul_left_cancel₀ h2 h3
    exact ⟨n, by rw [mul_comm]; exact_mod_cast this⟩
  · rintro ⟨t, rfl⟩; exact ee_mul_M hM t

theorem ee_re (M : ℕ) (a : ℤ) : (ee M a).re = Real.cos (2 * Real.pi * a / M) := by
  have : (2 * Real.pi * Complex.I * a / M : ℂ) = ((2 * Real.pi * a / M : ℝ) : ℂ) * Complex.I := by push_cast; ring
  rw [ee, this, Complex.exp_ofReal_mul_I_re]

theorem ee_im (M : ℕ) (a : ℤ) : (ee M a).im = Real.sin (2 * Real.pi * a / M) := by
  have : (2 * Real.pi * Complex.I * a / M : ℂ) = ((2 * Real.pi * a / M : ℝ) : ℂ) * Complex.I := by push_cast; ring
  rw [ee, this, Complex.exp_ofReal_mul_I_im]

theorem ee_conj (M : ℕ) (a : ℤ) : (starRingEnd ℂ) (ee M a) = ee M (-a) := by
  apply Complex.ext
  · rw [Complex.conj_re, ee_re, ee_re, ← Real.cos_neg]; congr 1; push_cast; ring
  · rw [Complex.conj_im, ee_im, ee_im, ← Real.sin_neg]; congr 1; push_cast; ring

theorem ee_normSq (M : ℕ) (a : ℤ) : Complex.normSq (ee M a) = 1 := by
  rw [Complex.normSq_apply, ee_re, ee_im]
  have := Real.sin_sq_add_cos_sq (2 * Real.pi * a / M)
  nlinarith [this]

/-- Orthogonality of the characters. -/
theorem ee_sum {M : ℕ} (hM : M ≠ 0) (a : ℤ) :
    ∑ k ∈ range M, ee M (k * a) = if (M : ℤ) ∣ a then (M : ℂ) else 0 := by
  split
  · rename_i h
    obtain ⟨t, rfl⟩ := h
    rw [sum_congr rfl (g := fun _ => (1 : ℂ))]
    · simp
    · intro k _
      rw [show (k : ℤ) * (M * t) = M * (k * t) by ring, ee_mul_M hM]
  · rename_i h
    have h1 : ee M a ≠ 1 := fun h' => h ((ee_eq_one_iff hM a).mp h')
    have : ∑ k ∈ range M, ee M (k * a) = ∑ k ∈ range M, ee M a ^ k :=
      sum_congr rfl fun k _ => (ee_pow M a k).symm
    rw [this, geom_sum_eq h1, ee_pow, ee_mul_M hM, sub_self, zero_div]

theorem dft_eq (v : List ℂ) (k : ℕ) :
    dft v k = ∑ n ∈ range v.length, v.getD n 0 * ee v.length (-((k : ℤ) * n)) := by
  unfold dft
  refine sum_congr rfl fun n _ => ?_
  congr 1; rw [ee]; congr 1; push_cast; ring

theorem idft_eq (v : List ℂ) (n : ℕ) :
    idft v n = (∑ k ∈ range v.length, v.getD k 0 * ee v.length ((n : ℤ) * k)) / v.length := by
  unfold idft
  congr 1
  refine sum_congr rfl fun k _ => ?_
  congr 1; rw [ee]; congr 1; push_cast; ring

/-- Two indices below `M` that are congruent modulo `M` are equal. -/
theorem dvd_sub_iff {M n m : ℕ} (hn : n < M) (hm : m < M) : (M : ℤ) ∣ (n : ℤ) - m ↔ n = m := by
  constructor
  · rintro ⟨t, ht⟩
    have h1 : (n : ℤ) - m < M := by omega
    have h2 : -(M : ℤ) < (n : ℤ) - m := by omega
    have h3 : t < 1 := by nlinarith
    have h4 : -1 < t := by nlinarith
    have : t = 0 := by omega
    subst this; omega
  · rintro rfl; simp

/-- Fourier inversion. -/
theorem dft_inversion (v : List ℂ) (n : ℕ) (hn : n < v.length) :
    ∑ k ∈ range v.length, dft v k * ee v.length ((k : ℤ) * n) = v.length * v.getD n 0 := by
  have hM : v.length ≠ 0 := by omega
  have h1 : ∑ k ∈ range v.length, dft v k * ee v.length ((k : ℤ) * n)
      = ∑ m ∈ range v.length, v.getD m 0 * ∑ k ∈ range v.length, ee v.length (k * ((n : ℤ) - m)) := by
    simp_rw [dft_eq, sum_mul, mul_sum]
    rw [sum_comm]
    refine sum_congr rfl fun m _ => sum_congr rfl fun k _ => ?_
    rw [mul_assoc, ← ee_add]; congr 2; ring
  rw [h1, sum_eq_single n]
  · rw [ee_sum hM, if_pos (by simp)]; ring
  · intro m hm hmn
    rw [ee_sum hM, if_neg, mul_zero]
    rw [dvd_sub_iff hn (by simpa using hm)]; exact fun h => hmn h.symm
  · intro h; simp at h; omega

end

end MFA
