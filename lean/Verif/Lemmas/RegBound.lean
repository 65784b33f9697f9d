import Verif.Lemmas.Range

/-! The regression slope is stable: its weights are at most 1 when the abscissae are distinct integers. -/

namespace MFA

open Classical Finset

noncomputable section

theorem rWS_le_one {n : ℕ} (x nj : Fin n → ℝ) (hn : ∀ i, 0 ≤ nj i) (hx : ∀ i k, |x i - x k| ≤ (x i - x k) ^ 2) (i : Fin n) :
    |rWS x nj i| ≤ 1 := by
  let S : Fin n → ℝ := fun a => ∑ b, nj a * nj b * (x a - x b) ^ 2
  have hD : 2 * rD x nj = ∑ a, S a := by
    have e : ∀ a, S a = nj a * (x a * x a) * rV0 nj - 2 * (nj a * x a) * rV1 x nj + nj a * rV2 x nj := by
      intro a
      simp only [S, rV0, rV1, rV2, mul_sum]
      rw [← sum_sub_distrib, ← sum_add_distrib]
      exact sum_congr rfl fun b _ => by ring
    rw [sum_congr rfl fun a _ => e a, sum_add_distrib, sum_sub_distrib, ← sum_mul, ← sum_mul, ← sum_mul, ← mul_sum]
    show 2 * (rV0 nj * rV2 x nj - rV1 x nj * rV1 x nj) = rV2 x nj * rV0 nj - 2 * rV1 x nj * rV1 x nj + rV0 nj * rV2 x nj
    ring
  have hS0 : ∀ a, 0 ≤ S a := fun a => sum_nonneg fun b _ => mul_nonneg (mul_nonneg (hn a) (hn b)) (sq_nonneg _)
  have hSi : S i ≤ ∑ a ∈ univ.erase i, S a := by
    have h1 : S i = ∑ a ∈ univ.erase i, nj i * nj a * (x i - x a) ^ 2 := by
      show ∑ b, nj i * nj b * (x i - x b) ^ 2 = _
      rw [← add_sum_erase _ _ (mem_univ i)]; simp
    rw [h1]
    refine sum_le_sum fun a _ => ?_
    have : nj i * nj a * (x i - x a) ^ 2 = nj a * nj i * (x a - x i) ^ 2 := by ring
    rw [this]
    exact single_le_sum (f := fun b => nj a * nj b * (x a - x b) ^ 2)
      (fun b _ => mul_nonneg (mul_nonneg (hn a) (hn b)) (sq_nonneg _)) (mem_univ i)
  have hSD : S i ≤ rD x nj := by
    rw [← add_sum_erase _ _ (mem_univ i)] at hD
    linarith
  have hnum : |nj i * (rV0 nj * x i - rV1 x nj)| ≤ S i := by
    have e : nj i * (rV0 nj * x i - rV1 x nj) = ∑ k, nj i * nj k * (x i - x k) := by
      simp only [rV0, rV1, sum_mul]
      rw [← sum_sub_distrib, mul_sum]
      exact sum_congr rfl fun b _ => by ring
    rw [e]
    refine (abs_sum_le_sum_abs _ _).trans (sum_le_sum fun k _ => ?_)
    rw [abs_mul, abs_of_nonneg (mul_nonneg (hn i) (hn k))]
    exact mul_le_mul_of_nonneg_left (hx i k) (mul_nonneg (hn i) (hn k))
  unfold rWS
  rw [abs_div]
  have hD0 : 0 ≤ rD x nj := (hS0 i).trans hSD
  rw [abs_of_nonneg hD0]
  exact div_le_one_of_le₀ (hnum.trans hSD) hD0

variable {ι : Type}

/-- The slope of ordinates that are close to a line. -/
theorem slopeL_near (l : List ι) (x : ι → ℤ) (w : ι → ℝ) (hw : ∀ p ∈ l, 0 < w p) (hx : ∃ p ∈ l, ∃ p' ∈ l, x p ≠ x p')
    (y : ι → Fl) (c d : ℝ) (E : ι → ℝ) (hy : ∀ p ∈ l, ∃ t, y p = Fl.fin t ∧ |t - (c + d * x p)| ≤ E p) :
    ∃ z, slopeL l (fun p => (x p : ℝ)) w y = Fl.fin z ∧ |z - d| ≤ (l.map E).sum := by
  obtain ⟨p, hp, p', hp', hne⟩ := hx
  have hl : l ≠ [] := fun h => by rw [h] at hp; cases hp
  choose! t ht hte using hy
  have hD : rD (fun i : Fin l.length => (x l[i] : ℝ)) (fun i => w l[i]) ≠ 0 := by
    apply (rD_pos _ _ (fun i => hw _ (List.getElem_mem _)) ?_).ne'
    obtain ⟨i, hi, rfl⟩ := List.getElem_of_mem hp
    obtain ⟨i', hi', rfl⟩ := List.getElem_of_mem hp'
    exact ⟨⟨i, hi⟩, ⟨i', hi'⟩, by exact_mod_cast hne⟩
  rcases slopeL_cases l hl (fun p => (x p : ℝ)) w (fun p hp => (hw p hp).le) with h | ⟨_, h⟩
  · have h2 := (slopeL_affine l (fun p => (x p : ℝ)) w hw ⟨p, hp, p', hp', by exact_mod_cast hne⟩ c d).1
    rw [(h _).1] at h2
    cases h2
  · let W : Fin l.length → ℝ := rWS (fun i : Fin l.length => (x l[i] : ℝ)) (fun i => w l[i])
    refine ⟨∑ i : Fin l.length, W i * t l[i], ?_, ?_⟩
    · rw [(h _).1, ← Fl.sum_fin]
      refine sum_congr rfl fun i _ => ?_
      have hy := ht l[i] (List.getElem_mem _)
      rw [hy, Fl.fin_mul]
    · have hs := rWS_sum (fun i : Fin l.length => (x l[i] : ℝ)) (fun i => w l[i]) hD
      have hsx := rWS_sum_x (fun i : Fin l.length => (x l[i] : ℝ)) (fun i => w l[i]) hD
      have e : ∑ i : Fin l.length, W i * t l[i] - d = ∑ i : Fin l.length, W i * (t l[i] - (c + d * x l[i])) := by
        have : ∑ i : Fin l.length, W i * (t l[i] - (c + d * x l[i])) =
            ∑ i : Fin l.length, W i * t l[i] - c * ∑ i, W i - d * ∑ i : Fin l.length, W i * x l[i] := by
          rw [mul_sum, mul_sum, ← sum_sub_distrib, ← sum_sub_distrib]
          exact sum_congr rfl fun i _ => by ring
        rw [this]
        show _ = _ - c * ∑ i, rWS _ _ i - d * ∑ i, rWS _ _ i * _
        rw [hs, hsx]; ring
      rw [e, map_eq_ofFn, List.sum_ofFn]
      refine (abs_sum_le_sum_abs _ _).trans (sum_le_sum fun i _ => ?_)
      rw [abs_mul]
      have h1 : |W i| ≤ 1 := rWS_le_one _ _ (fun i => (hw _ (List.getElem_mem _)).le) (fun i k => by
        have : |x l[i] - x l[k]| ≤ (x l[i] - x l[k]) ^ 2 := by
          rw [← sq_abs]
          rcases eq_or_ne (x l[i] - x l[k]) 0 with h0 | h0
          · rw [h0]; simp
          · have := Int.one_le_abs h0
            nlinarith
        exact_mod_cast this) i
      have h2 := hte l[i] (List.getElem_mem _)
      calc |W i| * _ ≤ 1 * _ := mul_le_mul_of_nonneg_right h1 (abs_nonneg _)
        _ ≤ _ := by rw [one_mul]; exact h2

end

end MFA
