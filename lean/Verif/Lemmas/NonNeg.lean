import Verif.Lemmas.Scaling

/-! Floats that are NaN or non-negative. -/

namespace MFA

open Classical

/-- NaN or non-negative. -/
def NN (x : Fl) : Prop := x = Fl.nan ∨ Fl.le (Fl.fin 0) x

theorem NN.cases {x : Fl} (h : NN x) : x = Fl.nan ∨ x = Fl.pinf ∨ ∃ a : ℝ, 0 ≤ a ∧ x = Fl.fin a := by
  rcases h with h | h
  · exact Or.inl h
  · cases x with
    | nan => exact Or.inl rfl
    | pinf => exact Or.inr (Or.inl rfl)
    | ninf => simp [Fl.le] at h
    | fin a => exact Or.inr (Or.inr ⟨a, h, rfl⟩)

theorem NN.abs (x : Fl) : NN x.abs := by
  cases x
  · exact Or.inl rfl
  · exact Or.inr trivial
  · exact Or.inr trivial
  · exact Or.inr (abs_nonneg _)

theorem nonneg_add {x y : Fl} (hx : Fl.le (Fl.fin 0) x) (hy : Fl.le (Fl.fin 0) y) : Fl.le (Fl.fin 0) (x + y) := by
  cases x <;> cases y <;> simp_all [Fl.le]
  exact add_nonneg hx hy

theorem nonneg_sum {l : List Fl} (h : ∀ x ∈ l, Fl.le (Fl.fin 0) x) : Fl.le (Fl.fin 0) l.sum := by
  induction l with
  | nil => exact le_refl (0:ℝ)
  | cons a l ih =>
    rw [List.sum_cons]
    exact nonneg_add (h a (by simp)) (ih (fun x hx => h x (by simp [hx])))

theorem nonneg_dropNaN {l : List Fl} (h : ∀ x ∈ l, NN x) : ∀ x ∈ dropNaN l, Fl.le (Fl.fin 0) x := by
  intro x hx
  rw [mem_dropNaN] at hx
  rcases h x hx.1 with e | e
  · rw [e] at hx; simp at hx
  · exact e

theorem NN.fin_mul {x : Fl} (h : NN x) {c : ℝ} (hc : 0 < c) : NN (Fl.fin c * x) := by
  rcases h.cases with rfl | rfl | ⟨a, ha, rfl⟩
  · exact Or.inl (by simp)
  · rw [Fl.fin_mul_pinf, Fl.sgnInf_pos hc]; exact Or.inr trivial
  · exact Or.inr (mul_nonneg hc.le ha)

end MFA
