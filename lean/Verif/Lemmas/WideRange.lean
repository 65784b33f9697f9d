import Verif.Lemmas.RegBound

/-!
# Ordinary least squares over a wide range of scales

The slope of the unweighted regression over `n` consecutive integers of ordinates that stay within `E` of a line is within
`6 E / (n + 1)` of the slope of the line: bounded perturbations do not matter when the range is wide.
-/

namespace MFA

open Finset

noncomputable section

theorem sum_consecutive (a : ℝ) (n : ℕ) : ∑ i ∈ range n, (a + (i : ℝ)) = n * a + n * (n - 1) / 2 := by
  induction n with
  | zero => simp
  | succ n ih => rw [sum_range_succ, ih]; push_cast; ring

theorem sum_consecutive_sq (a : ℝ) (n : ℕ) :
    ∑ i ∈ range n, (a + (i : ℝ)) * (a + i) = n * a ^ 2 + a * n * (n - 1) + n * (n - 1) * (2 * n - 1) / 6 := by
  induction n with
  | zero => simp
  | succ n ih => rw [sum_range_succ, ih]; push_cast; ring

theorem rWS_consecutive {n : ℕ} (hn : 2 ≤ n) (a : ℝ) (i : Fin n) :
    |rWS (fun i : Fin n => a + ((i : ℕ) : ℝ)) (fun _ => 1) i| ≤ 6 / (n * (n + 1)) := by
  have hn' : (2:ℝ) ≤ n := by exact_mod_cast hn
  have e0 : rV0 (fun _ : Fin n => (1:ℝ)) = n := by simp [rV0]
  have e1 : rV1 (fun i : Fin n => a + ((i : ℕ) : ℝ)) (fun _ => 1) = n * a + n * (n - 1) / 2 := by
    unfold rV1
    simp only [one_mul]
    rw [← sum_consecutive, sum_range]
  have e2 : rV2 (fun i : Fin n => a + ((i : ℕ) : ℝ)) (fun _ => 1) = n * a ^ 2 + a * n * (n - 1) + n * (n - 1) * (2 * n - 1) / 6 := by
    unfold rV2
    simp only [one_mul]
    rw [← sum_consecutive_sq, sum_range]
  have eD : rD (fun i : Fin n => a + ((i : ℕ) : ℝ)) (fun _ => 1) = n ^ 2 * ((n - 1) * (n + 1)) / 12 := by
    unfold rD; rw [e0, e1, e2]; ring
  have hi0 : (0:ℝ) ≤ ((i : ℕ) : ℝ) := Nat.cast_nonneg _
  have hi : ((i : ℕ) : ℝ) + 1 ≤ n := by exact_mod_cast i.2
  have hpos : (0:ℝ) < (n:ℝ) ^ 2 * ((n - 1) * (n + 1)) / 12 := by
    have : (0:ℝ) < n := by linarith
    have : (0:ℝ) < (n:ℝ) - 1 := by linarith
    positivity
  unfold rWS
  rw [eD, e0, e1, one_mul, abs_div, abs_of_pos hpos, div_le_iff₀ hpos]
  have hb : |(n:ℝ) * (a + ((i : ℕ) : ℝ)) - (n * a + n * (n - 1) / 2)| ≤ n * (n - 1) / 2 := by
    rw [show (n:ℝ) * (a + ((i : ℕ) : ℝ)) - (n * a + n * (n - 1) / 2) = n * (((i : ℕ) : ℝ) - (n - 1) / 2) by ring, abs_mul,
      abs_of_pos (by linarith : (0:ℝ) < n), mul_div_assoc]
    refine mul_le_mul_of_nonneg_left ?_ (by linarith)
    rw [abs_le]; constructor <;> linarith
  refine hb.trans (le_of_eq ?_)
  have h1 : (n:ℝ) ≠ 0 := by linarith
  have h2 : (n:ℝ) + 1 ≠ 0 := by linarith
  field_simp
  ring

variable {ι : Type}

/-- The unweighted slope over consecutive scales of ordinates that stay within `E` of a line. -/
theorem slopeL_wide (l : List ι) (x : ι → ℤ) (w : ι → ℝ) (hw : ∀ p ∈ l, w p = 1) {j1 j2 : ℕ} (h12 : j1 < j2)
    (hx : l.map x = arange (j1 : ℤ) ((j2 : ℤ) + 1))
    (y : ι → Fl) (c d E : ℝ) (hy : ∀ p ∈ l, ∃ t, y p = Fl.fin t ∧ |t - (c + d * x p)| ≤ E) :
    ∃ z, slopeL l (fun p => (x p : ℝ)) w y = Fl.fin z ∧ |z - d| ≤ 6 * E / (j2 - j1) := by
  have hlen : l.length = j2 - j1 + 1 := by
    have := congrArg List.length hx
    simp only [List.length_map, arange, List.length_range] at this
    omega
  have hn2 : 2 ≤ l.length := by omega
  have hl : l ≠ [] := fun h => by rw [h] at hlen; simp at hlen
  have hxi : ∀ i : Fin l.length, x l[i] = (j1 : ℤ) + ((i : ℕ) : ℤ) := by
    intro i
    have h1 : (l.map x)[(i : ℕ)]? = some (x l[i]) := by simp
    rw [hx] at h1
    unfold arange at h1
    rw [List.getElem?_map, List.getElem?_range (by have := i.2; omega)] at h1
    simpa using h1.symm
  choose! t ht hte using hy
  have ex : (fun i : Fin l.length => (x l[i] : ℝ)) = fun i : Fin l.length => (j1 : ℝ) + ((i : ℕ) : ℝ) := by
    funext i; rw [hxi i]; push_cast; rfl
  have ew : (fun i : Fin l.length => w l[i]) = fun _ => 1 := by funext i; exact hw _ (List.getElem_mem _)
  have hne : ∃ p ∈ l, ∃ p' ∈ l, x p ≠ x p' := by
    refine ⟨l[0], List.getElem_mem _, l[1], List.getElem_mem _, ?_⟩
    have a := hxi ⟨0, by omega⟩
    have b := hxi ⟨1, by omega⟩
    simp only [Fin.getElem_fin] at a b
    rw [a, b]; simp
  obtain ⟨p, hp, p', hp', hpp⟩ := hne
  have hw0 : ∀ p ∈ l, 0 < w p := fun p hp => by rw [hw p hp]; exact one_pos
  have hD : rD (fun i : Fin l.length => (x l[i] : ℝ)) (fun i => w l[i]) ≠ 0 := by
    apply (rD_pos _ _ (fun i => hw0 _ (List.getElem_mem _)) ?_).ne'
    obtain ⟨i, hi, rfl⟩ := List.getElem_of_mem hp
    obtain ⟨i', hi', rfl⟩ := List.getElem_of_mem hp'
    exact ⟨⟨i, hi⟩, ⟨i', hi'⟩, by exact_mod_cast hpp⟩
  have hE : 0 ≤ E := (abs_nonneg _).trans (hte p hp)
  rcases slopeL_cases l hl (fun p => (x p : ℝ)) w (fun p hp => (hw0 p hp).le) with h | ⟨_, h⟩
  · have h2 := (slopeL_affine l (fun p => (x p : ℝ)) w hw0 ⟨p, hp, p', hp', by exact_mod_cast hpp⟩ c d).1
    rw [(h _).1] at h2
    cases h2
  · let W : Fin l.length → ℝ := rWS (fun i : Fin l.length => (x l[i] : ℝ)) (fun i => w l[i])
    refine ⟨∑ i : Fin l.length, W i * t l[i], ?_, ?_⟩
    · rw [(h _).1, ← Fl.sum_fin]
      refine sum_congr rfl fun i _ => ?_
      have hy := ht l[i] (List.getElem_mem _)
      rw [hy, Fl.fin_mul]
    · have hs := rWS_sum (fun i : Fin l.length => (x l[i] : ℝ)) (fun i => w l[i]) hD
      have hsx := rWS_sum_x (fun i : Fin l.length => (x l[i] : ℝ)) (fun i => w l[i]) hD
      have e : ∑ i : Fin l.length, W i * t l[i] - d = ∑ i : Fin l.length, W i * (t l[i] - (c + d * x l[i])) := by
        have : ∑ i : Fin l.length, W i * (t l[i] - (c + d * x l[i])) =
            ∑ i : Fin l.length, W i * t l[i] - c * ∑ i, W i - d * ∑ i : Fin l.length, W i * x l[i] := by
          rw [mul_sum, mul_sum, ← sum_sub_distrib, ← sum_sub_distrib]
          exact sum_congr rfl fun i _ => by ring
        rw [this]
        show _ = _ - c * ∑ i, rWS _ _ i - d * ∑ i, rWS _ _ i * _
        rw [hs, hsx]; ring
      rw [e]
      have hW : ∀ i, |W i| ≤ 6 / (l.length * (l.length + 1)) := by
        intro i
        show |rWS _ _ i| ≤ _
        rw [ex, ew]
        exact rWS_consecutive hn2 _ i
      have hj : (0:ℝ) < (j2:ℝ) - j1 := by
        have : (j1:ℝ) < j2 := by exact_mod_cast h12
        linarith
      calc |∑ i : Fin l.length, W i * (t l[i] - (c + d * x l[i]))| ≤ ∑ i : Fin l.length, 6 / ((l.length : ℝ) * (l.length + 1)) * E := by
            refine (abs_sum_le_sum_abs _ _).trans (sum_le_sum fun i _ => ?_)
            rw [abs_mul]
            exact mul_le_mul (hW i) (hte l[i] (List.getElem_mem _)) (abs_nonneg _) (by positivity)
        _ = 6 * E / (l.length + 1) := by
            rw [sum_const, card_univ, Fintype.card_fin, nsmul_eq_mul]
            have : (l.length : ℝ) ≠ 0 := by exact_mod_cast (by omega : l.length ≠ 0)
            field_simp
        _ ≤ 6 * E / (j2 - j1) := by
            apply div_le_div_of_nonneg_left (by positivity) hj
            rw [hlen, Nat.cast_add, Nat.cast_sub h12.le]
            push_cast
            linarith

end

end MFA
