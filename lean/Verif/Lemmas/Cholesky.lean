import Verif.Lemmas.Embed
import Mathlib.Analysis.Matrix.LDL
import Mathlib.LinearAlgebra.Matrix.Block

/-!
# Cholesky factors: existence for positive definite matrices; positive definite Toeplitz matrices
-/

namespace MFA

open Classical Finset Matrix

noncomputable section

theorem IsUpperCholesky.posDef {n : ℕ} {U A : Matrix (Fin n) (Fin n) ℝ} (h : IsUpperCholesky U A) : A.PosDef := by
  have hdet : U.det = ∏ i, U i i := Matrix.det_of_isUpperTriangular (fun i j hij => h.upper i j hij)
  have hu : IsUnit U := by
    rw [Matrix.isUnit_iff_isUnit_det, hdet, isUnit_iff_ne_zero]
    exact prod_ne_zero_iff.mpr fun i _ => (h.diag i).ne'
  rw [← h.mul]
  have := Matrix.PosDef.conjTranspose_mul_self U (Matrix.mulVec_injective_of_isUnit hu)
  rwa [Matrix.conjTranspose_eq_transpose_of_trivial] at this

theorem exists_cholesky {n : ℕ} {A : Matrix (Fin n) (Fin n) ℝ} (hA : A.PosDef) : ∃ U, IsUpperCholesky U A := by
  have hinv : Invertible (LDL.lowerInv hA) := LDL.invertibleLowerInv hA
  set M := LDL.lowerInv hA with hM
  have htri : M.BlockTriangular OrderDual.toDual := fun i j hij => LDL.lowerInv_triangular hA hij
  have htri' : M⁻¹.BlockTriangular OrderDual.toDual := Matrix.blockTriangular_inv_of_blockTriangular htri
  have hunit : IsUnit M := isUnit_of_invertible M
  have hunit' : IsUnit M⁻¹ := by rwa [Matrix.isUnit_nonsing_inv_iff]
  have hdet : (M⁻¹).det = ∏ i, M⁻¹ i i := Matrix.det_of_isLowerTriangular _ htri'
  have hne : ∀ i, M⁻¹ i i ≠ 0 := by
    rw [Matrix.isUnit_iff_isUnit_det, hdet, isUnit_iff_ne_zero, prod_ne_zero_iff] at hunit'
    exact fun i => hunit' i (mem_univ i)
  have hD : Matrix.diagonal (LDL.diagEntries hA) = M * A * Mᴴ := LDL.diag_eq_lowerInv_conj hA
  have hDpos : ∀ i, 0 < LDL.diagEntries hA i := by
    have : (Matrix.diagonal (LDL.diagEntries hA)).PosDef := by
      rw [hD]
      exact hA.mul_mul_conjTranspose_same (Matrix.vecMul_injective_of_isUnit hunit)
    exact Matrix.posDef_diagonal_iff.mp this
  set s : Fin n → ℝ := fun i => Real.sqrt (LDL.diagEntries hA i) * SignType.sign (M⁻¹ i i) with hs
  have hs2 : ∀ i, s i * s i = LDL.diagEntries hA i := by
    intro i
    have h1 : ((SignType.sign (M⁻¹ i i) : SignType) : ℝ) * SignType.sign (M⁻¹ i i) = 1 := by
      rcases lt_or_gt_of_ne (hne i) with h | h
      · rw [sign_neg h]; norm_num
      · rw [sign_pos h]; norm_num
    have h2 := Real.mul_self_sqrt (hDpos i).le
    calc s i * s i = (Real.sqrt (LDL.diagEntries hA i) * Real.sqrt (LDL.diagEntries hA i))
          * (((SignType.sign (M⁻¹ i i) : SignType) : ℝ) * SignType.sign (M⁻¹ i i)) := by rw [hs]; ring
      _ = _ := by rw [h1, h2, mul_one]
  refine ⟨Matrix.diagonal s * (M⁻¹)ᵀ, ?_, ?_, ?_⟩
  · intro i j hij
    rw [Matrix.diagonal_mul, Matrix.transpose_apply, htri' (i := j) (j := i) hij, mul_zero]
  · intro i
    rw [Matrix.diagonal_mul, Matrix.transpose_apply]
    have : 0 < ((SignType.sign (M⁻¹ i i) : SignType) : ℝ) * M⁻¹ i i := by
      rcases lt_or_gt_of_ne (hne i) with h | h
      · rw [sign_neg h]; simp; exact h
      · rw [sign_pos h]; simpa using h
    rw [hs]
    simp only []
    rw [mul_assoc]
    exact mul_pos (Real.sqrt_pos.mpr (hDpos i)) this
  · rw [Matrix.transpose_mul, Matrix.transpose_transpose, Matrix.diagonal_transpose]
    have h1 : Matrix.diagonal s * Matrix.diagonal s = Matrix.diagonal (LDL.diagEntries hA) := by
      rw [Matrix.diagonal_mul_diagonal]; congr 1; funext i; exact hs2 i
    calc M⁻¹ * diagonal s * (diagonal s * (M⁻¹)ᵀ) = M⁻¹ * (diagonal s * diagonal s) * (M⁻¹)ᵀ := by
          simp only [Matrix.mul_assoc]
      _ = M⁻¹ * (M * A * Mᴴ) * (M⁻¹)ᵀ := by rw [h1, hD]
      _ = (M⁻¹ * M) * A * (Mᵀ * (M⁻¹)ᵀ) := by
          rw [Matrix.conjTranspose_eq_transpose_of_trivial]; simp only [Matrix.mul_assoc]
      _ = A := by
          rw [← Matrix.transpose_mul, Matrix.inv_mul_of_invertible]
          simp

theorem cholesky_iff {n : ℕ} (A : Matrix (Fin n) (Fin n) ℝ) : (∃ U, IsUpperCholesky U A) ↔ A.PosDef :=
  ⟨fun ⟨_, h⟩ => h.posDef, exists_cholesky⟩

end

end MFA
