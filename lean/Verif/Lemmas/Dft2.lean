import Verif.Model.Simul2d
import Verif.Spec.Fourier2d
import Verif.Lemmas.Dft

/-!
# Two-dimensional discrete Fourier transforms: inversion, conjugation, Parseval
-/

namespace MFA

open Classical Finset

noncomputable section

variable {N R : ℕ}

/-- Forward transform of a vector. -/
def fwd (v : Fin N → ℂ) (k : Fin N) : ℂ := ∑ a : Fin N, v a * ee N (-((k : ℤ) * a))

/-- Inverse transform of a vector. -/
def inv (v : Fin N → ℂ) (a : Fin N) : ℂ := (∑ k : Fin N, v k * ee N ((k : ℤ) * a)) / N

theorem ee_sum_fin (a b : Fin N) : ∑ k : Fin N, ee N ((k : ℤ) * ((a : ℤ) - b)) = if a = b then (N : ℂ) else 0 := by
  have hN : N ≠ 0 := by have := a.isLt; omega
  rw [Fin.sum_univ_eq_sum_range (fun k => ee N ((k : ℤ) * ((a : ℤ) - b))), ee_sum hN]
  simp only [dvd_sub_iff a.isLt b.isLt, Fin.val_inj]

theorem inv_fwd (v : Fin N → ℂ) : inv (fwd v) = v := by
  funext a
  have hN : (N : ℂ) ≠ 0 := by have := a.isLt; exact_mod_cast (by omega : N ≠ 0)
  unfold inv fwd
  have : ∑ k : Fin N, (∑ b : Fin N, v b * ee N (-((k : ℤ) * b))) * ee N ((k : ℤ) * a)
      = ∑ b : Fin N, v b * ∑ k : Fin N, ee N ((k : ℤ) * ((a : ℤ) - b)) := by
    simp_rw [sum_mul, mul_sum]
    rw [sum_comm]
    refine sum_congr rfl fun b _ => sum_congr rfl fun k _ => ?_
    rw [mul_assoc, ← ee_add]; congr 2; ring
  rw [this]
  simp only [ee_sum_fin, mul_ite, mul_zero, sum_ite_eq, mem_univ, if_true]
  field_simp

theorem fwd_inv (v : Fin N → ℂ) : fwd (inv v) = v := by
  funext k
  have hN : (N : ℂ) ≠ 0 := by have := k.isLt; exact_mod_cast (by omega : N ≠ 0)
  unfold inv fwd
  have : ∑ a : Fin N, (∑ l : Fin N, v l * ee N ((l : ℤ) * a)) / N * ee N (-((k : ℤ) * a))
      = (∑ l : Fin N, v l * ∑ a : Fin N, ee N ((a : ℤ) * ((l : ℤ) - k))) / N := by
    simp_rw [div_mul_eq_mul_div, ← sum_div, sum_mul, mul_sum]
    rw [sum_comm]
    congr 1
    refine sum_congr rfl fun b _ => sum_congr rfl fun k _ => ?_
    rw [mul_assoc, ← ee_add]; congr 2; ring
  rw [this]
  simp only [ee_sum_fin, mul_ite, mul_zero, sum_ite_eq', mem_univ, if_true]
  field_simp

theorem exp_neg_pair (k a l b : Fin N) : Complex.exp (-(2 * Real.pi * Complex.I * ((k : ℂ) * a + (l : ℂ) * b) / N))
    = ee N (-((k : ℤ) * a)) * ee N (-((l : ℤ) * b)) := by
  rw [← ee_add, ee]; congr 1; push_cast; ring

theorem exp_pair (k a l b : Fin N) : Complex.exp (2 * Real.pi * Complex.I * ((a : ℂ) * k + (b : ℂ) * l) / N)
    = ee N ((k : ℤ) * a) * ee N ((l : ℤ) * b) := by
  rw [← ee_add, ee]; congr 1; push_cast; ring

theorem fft2_eq (x : Sq N R ℂ) (k l : Fin N) (r : Fin R) : fft2 x k l r = fwd (fun a => fwd (fun b => x a b r) l) k := by
  unfold fft2 fwd
  refine sum_congr rfl fun a _ => ?_
  rw [sum_mul]
  refine sum_congr rfl fun b _ => ?_
  rw [exp_neg_pair]; ring

theorem fft2_eq' (x : Sq N R ℂ) (k l : Fin N) (r : Fin R) : fft2 x k l r = fwd (fun b => fwd (fun a => x a b r) k) l := by
  unfold fft2 fwd
  rw [sum_comm]
  refine sum_congr rfl fun b _ => ?_
  rw [sum_mul]
  refine sum_congr rfl fun a _ => ?_
  rw [exp_neg_pair]; ring

theorem ifft2_eq (y : Sq N R ℂ) (a b : Fin N) (r : Fin R) : ifft2 y a b r = inv (fun k => inv (fun l => y k l r) b) a := by
  unfold ifft2 inv
  simp_rw [sum_div, sum_mul, sum_div]
  refine sum_congr rfl fun k _ => sum_congr rfl fun l _ => ?_
  rw [exp_pair]; ring

theorem ifft2_eq' (y : Sq N R ℂ) (a b : Fin N) (r : Fin R) : ifft2 y a b r = inv (fun l => inv (fun k => y k l r) a) b := by
  unfold ifft2 inv
  rw [sum_comm]
  simp_rw [sum_div, sum_mul, sum_div]
  refine sum_congr rfl fun k _ => sum_congr rfl fun l _ => ?_
  rw [exp_pair]; ring

theorem fft2_ifft2 (y : Sq N R ℂ) : fft2 (ifft2 y) = y := by
  funext k l r
  rw [fft2_eq]
  have : ∀ a, (fun b => ifft2 y a b r) = inv (fun l => inv (fun k => y k l r) a) := fun a => funext fun b => ifft2_eq' y a b r
  simp_rw [this, fwd_inv]

theorem ifft2_fft2 (x : Sq N R ℂ) : ifft2 (fft2 x) = x := by
  funext a b r
  rw [ifft2_eq]
  have : ∀ k, (fun l => fft2 x k l r) = fwd (fun b => fwd (fun a => x a b r) k) := fun k => funext fun l => fft2_eq' x k l r
  simp_rw [this, inv_fwd]

/-- The index of the opposite frequency. -/
def negIdx (k : Fin N) : Fin N := ⟨(N - k) % N, Nat.mod_lt _ (by have := k.isLt; omega)⟩

theorem ee_negIdx (k : Fin N) (a : ℤ) : ee N ((negIdx k : ℕ) * a) = ee N (-((k : ℤ) * a)) := by
  have hN : N ≠ 0 := by have := k.isLt; omega
  have h : ((negIdx k : ℕ) : ℤ) = -(k : ℤ) + N * (if (k : ℕ) = 0 then 0 else 1) := by
    unfold negIdx
    have := k.isLt
    split
    · rename_i h; simp [h]
    · simp only []
      rw [Nat.mod_eq_of_lt (by omega)]
      omega
  rw [h, show (-(k : ℤ) + N * (if (k : ℕ) = 0 then 0 else 1)) * a = -((k : ℤ) * a) + N * ((if (k : ℕ) = 0 then 0 else 1) * a) by ring,
    ee_periodic hN]

theorem fwd_conj (v : Fin N → ℂ) (k : Fin N) : (starRingEnd ℂ) (fwd v (negIdx k)) = fwd (fun a => (starRingEnd ℂ) (v a)) k := by
  unfold fwd
  rw [map_sum]
  refine sum_congr rfl fun a _ => ?_
  rw [map_mul, ee_conj, neg_neg, ee_negIdx]

theorem fft2_conj (x : Sq N R ℂ) (k l : Fin N) (r : Fin R) :
    (starRingEnd ℂ) (fft2 x (negIdx k) (negIdx l) r) = fft2 (fun a b r => (starRingEnd ℂ) (x a b r)) k l r := by
  rw [fft2_eq, fft2_eq, fwd_conj]
  simp_rw [fwd_conj]

theorem fft2_add (x y : Sq N R ℂ) (k l : Fin N) (r : Fin R) :
    fft2 (fun a b r => x a b r + y a b r) k l r = fft2 x k l r + fft2 y k l r := by
  unfold fft2
  simp_rw [add_mul, sum_add_distrib]

theorem fft2_mul (c : ℂ) (x : Sq N R ℂ) (k l : Fin N) (r : Fin R) :
    fft2 (fun a b r => c * x a b r) k l r = c * fft2 x k l r := by
  unfold fft2
  simp_rw [mul_sum, mul_assoc]

theorem fft2_ext {x y : Sq N R ℂ} (h : ∀ k l r, fft2 x k l r = fft2 y k l r) : x = y := by
  have : fft2 x = fft2 y := by funext k l r; exact h k l r
  rw [← ifft2_fft2 x, this, ifft2_fft2]

/-- The transform of the real part. -/
theorem fft2_re (z : Sq N R ℂ) (k l : Fin N) (r : Fin R) :
    fft2 (fun a b r => ((z a b r).re : ℂ)) k l r = (fft2 z k l r + (starRingEnd ℂ) (fft2 z (negIdx k) (negIdx l) r)) / 2 := by
  rw [fft2_conj, ← fft2_add, div_eq_inv_mul, ← fft2_mul]
  congr 1
  funext a b r
  rw [Complex.re_eq_add_conj]; ring

theorem spectrum2_eq (x : Sq N R ℝ) (k l : Fin N) (r : Fin R) :
    spectrum2 (fun a b => x a b r) k l = fft2 (fun a b r => (x a b r : ℂ)) k l r := rfl

/-- An image is determined by its spectrum. -/
theorem spectrum2_ext {x y : Sq N R ℝ} (h : ∀ k l r, spectrum2 (fun a b => x a b r) k l = spectrum2 (fun a b => y a b r) k l) : x = y := by
  have := fft2_ext (x := fun a b r => (x a b r : ℂ)) (y := fun a b r => (y a b r : ℂ)) h
  funext a b r
  have := congrFun (congrFun (congrFun this a) b) r
  exact_mod_cast this

/-- Parseval for one vector. -/
theorem parseval (v : Fin N → ℂ) : ∑ k : Fin N, Complex.normSq (fwd v k) = N * ∑ a : Fin N, Complex.normSq (v a) := by
  have h : ((∑ k : Fin N, Complex.normSq (fwd v k) : ℝ) : ℂ) = ((N * ∑ a : Fin N, Complex.normSq (v a) : ℝ) : ℂ) := by
    push_cast
    simp_rw [Complex.normSq_eq_conj_mul_self]
    have h1 : ∀ k, (starRingEnd ℂ) (fwd v k) = ∑ a : Fin N, (starRingEnd ℂ) (v a) * ee N ((k : ℤ) * a) := by
      intro k; unfold fwd; rw [map_sum]
      exact sum_congr rfl fun a _ => by rw [map_mul, ee_conj, neg_neg]
    have h2 : ∀ a : Fin N, ∑ k : Fin N, fwd v k * ee N ((k : ℤ) * a) = N * v a := by
      intro a
      have hN : (N : ℂ) ≠ 0 := by have := a.isLt; exact_mod_cast (by omega : N ≠ 0)
      have := congrFun (inv_fwd v) a
      unfold inv at this
      field_simp at this
      exact this
    calc ∑ k : Fin N, (starRingEnd ℂ) (fwd v k) * fwd v k
        = ∑ k : Fin N, ∑ a : Fin N, (starRingEnd ℂ) (v a) * (fwd v k * ee N ((k : ℤ) * a)) := by
          refine sum_congr rfl fun k _ => ?_
          rw [h1, sum_mul]
          exact sum_congr rfl fun a _ => by ring
      _ = ∑ a : Fin N, (starRingEnd ℂ) (v a) * ∑ k : Fin N, fwd v k * ee N ((k : ℤ) * a) := by
          rw [sum_comm]; exact sum_congr rfl fun a _ => by rw [mul_sum]
      _ = N * ∑ a : Fin N, (starRingEnd ℂ) (v a) * v a := by
          rw [mul_sum]; exact sum_congr rfl fun a _ => by rw [h2]; ring
  exact_mod_cast h

theorem parseval2 (x : Sq N R ℂ) (r : Fin R) :
    ∑ k : Fin N, ∑ l : Fin N, Complex.normSq (fft2 x k l r) = (N : ℝ) ^ 2 * ∑ a : Fin N, ∑ b : Fin N, Complex.normSq (x a b r) := by
  simp_rw [fft2_eq]
  rw [sum_comm]
  simp_rw [parseval]
  rw [← mul_sum, sum_comm]
  simp_rw [parseval]
  rw [← mul_sum]
  ring

end

end MFA
