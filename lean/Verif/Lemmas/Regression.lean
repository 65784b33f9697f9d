import Verif.Lemmas.Fl
import Verif.Model.Utils
import Mathlib.Algebra.BigOperators.Fin
import Mathlib.Algebra.BigOperators.Ring.Finset
import Mathlib.Algebra.Order.BigOperators.Ring.Finset
import Mathlib.Tactic.FieldSimp
import Mathlib.Tactic.Positivity
import Mathlib.Tactic.LinearCombination

/-! Helper lemmas about the weighted linear regression. -/

namespace MFA

open Classical Finset

theorem zipWith_ofFn {α β γ : Type} {n : ℕ} (f : α → β → γ) (a : Fin n → α) (b : Fin n → β) :
    List.zipWith f (List.ofFn a) (List.ofFn b) = List.ofFn (fun i => f (a i) (b i)) := by
  apply List.ext_getElem
  · simp
  · intro i h1 h2; simp

theorem map_ofFn' {α β : Type} {n : ℕ} (f : α → β) (a : Fin n → α) :
    (List.ofFn a).map f = List.ofFn (fun i => f (a i)) := by
  rw [List.map_ofFn]; rfl

theorem Fl.sum_fin {ι : Type} (s : Finset ι) (f : ι → ℝ) : ∑ i ∈ s, Fl.fin (f i) = Fl.fin (∑ i ∈ s, f i) := by
  induction s using Finset.induction_on with
  | empty => rfl
  | insert a s ha ih => rw [Finset.sum_insert ha, ih, Fl.fin_add, Finset.sum_insert ha]

theorem dotB_ofFn {n : ℕ} (w y : Fin n → Fl) :
    dotB (List.ofFn w) (List.ofFn y) = ∑ i, w i * y i := by
  have key : ∀ l m : List Fl, l.length = m.length → dotB l m = (List.zipWith (· * ·) l m).sum := by
    intro l m h
    match l, m, h with
    | [], [], _ => rfl
    | [a], [b], _ => simp [dotB]
    | a :: a' :: l, b :: b' :: m, _ => rfl
  rw [key _ _ (by simp), zipWith_ofFn, List.sum_ofFn]

/-! Real-valued regression weights. -/

section
variable {n : ℕ} (x nj : Fin n → ℝ)

noncomputable def rV0 : ℝ := ∑ i, nj i
noncomputable def rV1 : ℝ := ∑ i, nj i * x i
noncomputable def rV2 : ℝ := ∑ i, nj i * (x i * x i)
noncomputable def rD : ℝ := rV0 nj * rV2 x nj - rV1 x nj * rV1 x nj
noncomputable def rWS (i : Fin n) : ℝ := nj i * (rV0 nj * x i - rV1 x nj) / rD x nj
noncomputable def rWI (i : Fin n) : ℝ := nj i * (rV2 x nj - rV1 x nj * x i) / rD x nj

/-- Columns given by real functions. -/
noncomputable def finCol (f : Fin n → ℝ) : List Fl := List.ofFn (fun i => Fl.fin (f i))

theorem lrV0_fin : lrV0 (finCol nj) = Fl.fin (rV0 nj) := by
  rw [lrV0, finCol, List.sum_ofFn, Fl.sum_fin]; rfl

theorem lrV1_fin : lrV1 (finCol x) (finCol nj) = Fl.fin (rV1 x nj) := by
  rw [lrV1, finCol, finCol, zipWith_ofFn, List.sum_ofFn]
  simp only [Fl.fin_mul, Fl.sum_fin]; rfl

theorem lrV2_fin : lrV2 (finCol x) (finCol nj) = Fl.fin (rV2 x nj) := by
  rw [lrV2, finCol, finCol, zipWith_ofFn, List.sum_ofFn]
  simp only [Fl.fin_mul, Fl.sum_fin]; rfl

theorem lrWSlope_fin (hD : rD x nj ≠ 0) : lrWSlope (finCol x) (finCol nj) = finCol (rWS x nj) := by
  rw [lrWSlope, lrV0_fin, lrV1_fin, lrV2_fin, finCol, finCol, zipWith_ofFn, finCol]
  congr 1; funext i
  simp only [Fl.fin_mul, Fl.fin_sub]
  rw [Fl.fin_div (by exact hD)]; rfl

theorem lrWInter_fin (hD : rD x nj ≠ 0) : lrWInter (finCol x) (finCol nj) = finCol (rWI x nj) := by
  rw [lrWInter, lrV0_fin, lrV1_fin, lrV2_fin, finCol, finCol, zipWith_ofFn, finCol]
  congr 1; funext i
  simp only [Fl.fin_mul, Fl.fin_sub]
  rw [Fl.fin_div (by exact hD)]; rfl

theorem rWS_sum (_hD : rD x nj ≠ 0) : ∑ i, rWS x nj i = 0 := by
  have : ∑ i, rWS x nj i = (rV0 nj * rV1 x nj - rV1 x nj * rV0 nj) / rD x nj := by
    simp only [rWS, ← Finset.sum_div]
    congr 1
    have h1 : rV0 nj * rV1 x nj = ∑ i, nj i * (rV0 nj * x i) := by
      conv_lhs => rw [rV1, Finset.mul_sum]
      apply Finset.sum_congr rfl; intros; ring
    have h2 : rV1 x nj * rV0 nj = ∑ i, nj i * rV1 x nj := by
      conv_lhs => rw [mul_comm, rV0, Finset.sum_mul]
    rw [h1, h2, ← Finset.sum_sub_distrib]
    apply Finset.sum_congr rfl; intros; ring
  rw [this]; ring_nf

theorem rWS_sum_x (hD : rD x nj ≠ 0) : ∑ i, rWS x nj i * x i = 1 := by
  have : ∑ i, rWS x nj i * x i = (rV0 nj * rV2 x nj - rV1 x nj * rV1 x nj) / rD x nj := by
    simp only [rWS, div_mul_eq_mul_div, ← Finset.sum_div]
    congr 1
    have h1 : rV0 nj * rV2 x nj = ∑ i, nj i * (rV0 nj * x i) * x i := by
      conv_lhs => rw [rV2, Finset.mul_sum]
      apply Finset.sum_congr rfl; intros; ring
    have h2 : rV1 x nj * rV1 x nj = ∑ i, nj i * rV1 x nj * x i := by
      conv_lhs => arg 2; rw [rV1]
      rw [Finset.mul_sum]
      apply Finset.sum_congr rfl; intros; ring
    rw [h1, h2, ← Finset.sum_sub_distrib]
    apply Finset.sum_congr rfl; intros; ring
  rw [this]; exact div_self hD

theorem rWI_sum (hD : rD x nj ≠ 0) : ∑ i, rWI x nj i = 1 := by
  have : ∑ i, rWI x nj i = (rV0 nj * rV2 x nj - rV1 x nj * rV1 x nj) / rD x nj := by
    simp only [rWI, ← Finset.sum_div]
    congr 1
    have h1 : rV0 nj * rV2 x nj = ∑ i, nj i * rV2 x nj := by rw [rV0, Finset.sum_mul]
    have h2 : rV1 x nj * rV1 x nj = ∑ i, nj i * (rV1 x nj * x i) := by
      conv_lhs => arg 2; rw [rV1]
      rw [Finset.mul_sum]
      apply Finset.sum_congr rfl; intros; ring
    rw [h1, h2, ← Finset.sum_sub_distrib]
    apply Finset.sum_congr rfl; intros; ring
  rw [this]; exact div_self hD

theorem rWI_sum_x (_hD : rD x nj ≠ 0) : ∑ i, rWI x nj i * x i = 0 := by
  have : ∑ i, rWI x nj i * x i = (rV1 x nj * rV2 x nj - rV1 x nj * rV2 x nj) / rD x nj := by
    simp only [rWI, div_mul_eq_mul_div, ← Finset.sum_div]
    congr 1
    have h1 : rV1 x nj * rV2 x nj = ∑ i, nj i * rV2 x nj * x i := by
      rw [rV1, Finset.sum_mul]
      apply Finset.sum_congr rfl; intros; ring
    have h2 : rV1 x nj * rV2 x nj = ∑ i, nj i * (rV1 x nj * x i) * x i := by
      conv_lhs => rw [rV2]
      rw [Finset.mul_sum]
      apply Finset.sum_congr rfl; intros; ring
    have h3 : rV1 x nj * rV2 x nj - rV1 x nj * rV2 x nj
        = ∑ i, nj i * rV2 x nj * x i - ∑ i, nj i * (rV1 x nj * x i) * x i := by rw [← h1, ← h2]
    rw [h3]
    rw [← Finset.sum_sub_distrib]
    apply Finset.sum_congr rfl; intros; ring
  rw [this]; ring_nf

/-- The determinant is `V0 * Σ n (x - mean)^2`. -/
theorem rD_eq (h0 : rV0 nj ≠ 0) :
    rD x nj = rV0 nj * ∑ i, nj i * (x i - rV1 x nj / rV0 nj) ^ 2 := by
  have : ∑ i, nj i * (x i - rV1 x nj / rV0 nj) ^ 2
      = rV2 x nj - 2 * (rV1 x nj / rV0 nj) * rV1 x nj + (rV1 x nj / rV0 nj) ^ 2 * rV0 nj := by
    conv_rhs => arg 1; arg 1; rw [rV2]
    conv_rhs => arg 1; arg 2; arg 2; rw [rV1]
    conv_rhs => arg 2; arg 2; rw [rV0]
    rw [Finset.mul_sum, Finset.mul_sum, ← Finset.sum_sub_distrib, ← Finset.sum_add_distrib]
    apply Finset.sum_congr rfl; intros; ring
  rw [this, rD]; field_simp; ring

theorem rD_pos (hn : ∀ i, 0 < nj i) (hx : ∃ i i', x i ≠ x i') : 0 < rD x nj := by
  obtain ⟨i, i', hne⟩ := hx
  have h0 : 0 < rV0 nj := Finset.sum_pos (fun i _ => hn i) ⟨i, Finset.mem_univ _⟩
  rw [rD_eq _ _ h0.ne']
  apply mul_pos h0
  set m := rV1 x nj / rV0 nj
  have hex : ∃ k, x k ≠ m := by
    by_contra h; push Not at h; exact hne ((h i).trans (h i').symm)
  obtain ⟨k, hk⟩ := hex
  apply Finset.sum_pos'
  · intro t _; have := hn t; positivity
  · refine ⟨k, Finset.mem_univ _, mul_pos (hn k) ?_⟩
    have : x k - m ≠ 0 := sub_ne_zero.mpr hk
    positivity

end

/-- `linear_regression` on columns: slope as a weighted sum of arbitrary floats. -/
theorem slope_col {n : ℕ} (x nj : Fin n → ℝ) (y : Fin n → Fl) (hD : rD x nj ≠ 0) :
    dotB (lrWSlope (finCol x) (finCol nj)) (List.ofFn y) = ∑ i, Fl.fin (rWS x nj i) * y i := by
  rw [lrWSlope_fin _ _ hD, finCol, dotB_ofFn]

theorem inter_col {n : ℕ} (x nj : Fin n → ℝ) (y : Fin n → Fl) (hD : rD x nj ≠ 0) :
    dotB (lrWInter (finCol x) (finCol nj)) (List.ofFn y) = ∑ i, Fl.fin (rWI x nj i) * y i := by
  rw [lrWInter_fin _ _ hD, finCol, dotB_ofFn]

/-- Shifting by an affine function of `x`, for arbitrary (possibly non-finite) data. -/
theorem slope_shift {n : ℕ} (x nj : Fin n → ℝ) (y : Fin n → Fl) (c d : ℝ) (hD : rD x nj ≠ 0) :
    ∑ i, Fl.fin (rWS x nj i) * (y i + Fl.fin (c + d * x i))
      = (∑ i, Fl.fin (rWS x nj i) * y i) + Fl.fin d := by
  simp only [Fl.fin_mul_add, Finset.sum_add_distrib, Fl.fin_mul, Fl.sum_fin]
  congr 2
  have h1 := rWS_sum x nj hD
  have h2 := rWS_sum_x x nj hD
  calc ∑ i, rWS x nj i * (c + d * x i) = c * ∑ i, rWS x nj i + d * ∑ i, rWS x nj i * x i := by
        rw [Finset.mul_sum, Finset.mul_sum, ← Finset.sum_add_distrib]
        apply Finset.sum_congr rfl; intros; ring
    _ = d := by rw [h1, h2]; ring

theorem inter_shift {n : ℕ} (x nj : Fin n → ℝ) (y : Fin n → Fl) (c d : ℝ) (hD : rD x nj ≠ 0) :
    ∑ i, Fl.fin (rWI x nj i) * (y i + Fl.fin (c + d * x i))
      = (∑ i, Fl.fin (rWI x nj i) * y i) + Fl.fin c := by
  simp only [Fl.fin_mul_add, Finset.sum_add_distrib, Fl.fin_mul, Fl.sum_fin]
  congr 2
  have h1 := rWI_sum x nj hD
  have h2 := rWI_sum_x x nj hD
  calc ∑ i, rWI x nj i * (c + d * x i) = c * ∑ i, rWI x nj i + d * ∑ i, rWI x nj i * x i := by
        rw [Finset.mul_sum, Finset.mul_sum, ← Finset.sum_add_distrib]
        apply Finset.sum_congr rfl; intros; ring
    _ = c := by rw [h1, h2]; ring

/-- An array of shape (n, R) from a matrix. -/
theorem col_ofFn {n R : ℕ} (f : Fin n → Fin R → Fl) (r : Fin R) :
    col (List.ofFn f) r = List.ofFn (fun i => f i r) := by
  rw [col, map_ofFn']

end MFA
