import Verif.Lemmas.RoundedBounds
import Verif.Spec.RoundErr

/-! Explicit bounds on rounding errors: regressions over distinct integer abscissas. -/

namespace MFA

open Classical

noncomputable section

variable {ι : Type} {M : Machine}

/-- The determinant of the regression on distinct integers, when every weight leaves at least the fraction `1 / ρ` of the total to the others. -/
theorem det_ge {n : ℕ} (x : Fin n → ℤ) (w : Fin n → ℝ) (hw : ∀ i, 0 ≤ w i) (hx : Function.Injective x) {ρ : ℝ} (hρ : 0 < ρ)
    (h : ∀ i, ∑ k, w k ≤ ρ * (∑ k, w k - w i)) :
    (∑ k, w k) ^ 2 / (2 * ρ) ≤ (∑ k, w k) * (∑ k, w k * ((x k : ℝ) * x k)) - (∑ k, w k * x k) * (∑ k, w k * x k) := by
  have e : ∑ i, ∑ k, w i * w k * ((x i : ℝ) - x k) ^ 2 =
      2 * ((∑ k, w k) * (∑ k, w k * ((x k : ℝ) * x k)) - (∑ k, w k * x k) * (∑ k, w k * x k)) := by
    have : ∀ i k, w i * w k * ((x i : ℝ) - x k) ^ 2 =
        (w i * ((x i : ℝ) * x i)) * w k + w i * (w k * ((x k : ℝ) * x k)) - 2 * ((w i * x i) * (w k * x k)) := by intros; ring
    simp only [this, Finset.sum_add_distrib, Finset.sum_sub_distrib, ← Finset.mul_sum, ← Finset.sum_mul]
    ring
  have g : ∀ i, w i * ((∑ k, w k) / ρ) ≤ ∑ k, w i * w k * ((x i : ℝ) - x k) ^ 2 := by
    intro i
    have h1 : (∑ k, w k) / ρ ≤ ∑ k, w k - w i := by rw [div_le_iff₀ hρ, mul_comm]; exact h i
    have h2 : ∑ k, w k - w i = ∑ k ∈ Finset.univ.erase i, w k := by
      rw [← Finset.add_sum_erase _ _ (Finset.mem_univ i)]; ring
    have h3 : ∑ k ∈ Finset.univ.erase i, w k ≤ ∑ k ∈ Finset.univ.erase i, w k * ((x i : ℝ) - x k) ^ 2 := by
      refine Finset.sum_le_sum fun k hk => ?_
      have hne : x i ≠ x k := fun he => (Finset.mem_erase.1 hk).1 (hx he).symm
      have : (1:ℝ) ≤ ((x i : ℝ) - x k) ^ 2 := by
        have : (1:ℤ) ≤ (x i - x k) ^ 2 := by
          have : x i - x k ≠ 0 := sub_ne_zero.2 hne
          have := sq_pos_of_ne_zero this
          omega
        exact_mod_cast this
      exact le_mul_of_one_le_right (hw k) this
    have h4 : ∑ k ∈ Finset.univ.erase i, w k * ((x i : ℝ) - x k) ^ 2 ≤ ∑ k, w k * ((x i : ℝ) - x k) ^ 2 :=
      Finset.sum_le_sum_of_subset_of_nonneg (Finset.erase_subset _ _) fun k _ _ => mul_nonneg (hw k) (sq_nonneg _)
    have h5 : ∑ k, w i * w k * ((x i : ℝ) - x k) ^ 2 = w i * ∑ k, w k * ((x i : ℝ) - x k) ^ 2 := by
      rw [Finset.mul_sum]; exact Finset.sum_congr rfl fun k _ => by ring
    rw [h5]
    refine mul_le_mul_of_nonneg_left ?_ (hw i)
    linarith
  have s := Finset.sum_le_sum fun i (_ : i ∈ Finset.univ) => g i
  rw [← Finset.sum_mul, e] at s
  have : (∑ k, w k) ^ 2 / (2 * ρ) = (∑ k, w k) * ((∑ k, w k) / ρ) / 2 := by field_simp
  rw [this]
  linarith

set_option maxHeartbeats 800000 in
theorem slope_err {l : List ι} {x : ι → ℤ} {w : ι → ℝ} {j1 j2 : ℕ} (h12 : j1 < j2) (hxl : l.map x = arange (j1 : ℤ) ((j2 : ℤ) + 1))
    (hw : ∀ p ∈ l, 0 < w p) {ρ : ℝ} (hρ : 0 < ρ) (hb : ∀ p ∈ l, (l.map w).sum ≤ ρ * ((l.map w).sum - w p))
    (hu : 32 * ρ * j2 ^ 2 * (j2 - j1 + 3) * M.u ≤ 1) {y y0 : ι → Fl} {k : ℕ} {A : ℝ} {Y : ι → ℝ} (hk : (k : ℝ) * M.u ≤ 1)
    (hy : ∀ p ∈ l, Ap M k A (y p) (Y p)) (hy0 : ∀ p ∈ l, y0 p = Fl.fin (Y p)) :
    ∃ z s, M.slopeL l (fun p => (x p : ℝ)) w y = Fl.fin z ∧ slopeL l (fun p => (x p : ℝ)) w y0 = Fl.fin s ∧
      |z - s| ≤ roundErr M.u ρ j1 j2 k A ∧ |s| ≤ 4 * ρ * j2 * A := by
  have hu0 := M.u_nonneg
  have hlen : (l.length : ℝ) = j2 - j1 + 1 := by
    have := congrArg List.length hxl
    rw [List.length_map, arange_length] at this
    have h : (l.length : ℤ) = j2 - j1 + 1 := by omega
    have : ((l.length : ℤ) : ℝ) = ((j2 - j1 + 1 : ℤ) : ℝ) := by rw [h]
    push_cast at this
    exact this
  have hxr : ∀ p ∈ l, (j1 : ℤ) ≤ x p ∧ x p ≤ j2 := by
    intro p hp
    have : x p ∈ l.map x := List.mem_map.2 ⟨p, hp, rfl⟩
    rw [hxl, mem_arange] at this
    omega
  have hnd : (l.map x).Nodup := by 
    rw [hxl]
    unfold arange
    exact List.Nodup.map (fun a b h => by simpa using h) List.nodup_range
  have hl : l ≠ [] := by
    rintro rfl
    simp at hlen
    have : (j1 : ℝ) < j2 := by exact_mod_cast h12
    linarith
  obtain ⟨p0, hp0⟩ := List.exists_mem_of_ne_nil l hl
  have hA : 0 ≤ A := (hy p0 hp0).nonneg
  have hj2 : (1:ℝ) ≤ j2 := by exact_mod_cast (by omega : 1 ≤ j2)
  have hL3 : (0:ℝ) < j2 - j1 + 3 := by have : (j1 : ℝ) < j2 := by exact_mod_cast h12
                                       linarith
  obtain ⟨V0, e0⟩ : ∃ V, V = (l.map w).sum := ⟨_, rfl⟩
  obtain ⟨V1, e1⟩ : ∃ V, V = (l.map fun p => w p * (x p : ℝ)).sum := ⟨_, rfl⟩
  obtain ⟨V2, e2⟩ : ∃ V, V = (l.map fun p => w p * ((x p : ℝ) * x p)).sum := ⟨_, rfl⟩
  obtain ⟨D, eD⟩ : ∃ D, D = V0 * V2 - V1 * V1 := ⟨_, rfl⟩
  have hx0 : ∀ p ∈ l, (0:ℝ) ≤ (x p : ℝ) := fun p hp => by exact_mod_cast (by have := hxr p hp; omega : 0 ≤ x p)
  have hx2 : ∀ p ∈ l, (x p : ℝ) ≤ j2 := fun p hp => by exact_mod_cast (hxr p hp).2
  have p0' : 0 < V0 := by
    rw [e0]
    refine List.sum_pos _ ?_ (by simpa using hl)
    intro a ha
    obtain ⟨p, hp, rfl⟩ := List.mem_map.1 ha
    exact hw p hp
  have p1 : 0 ≤ V1 := by
    rw [e1]; exact List.sum_nonneg (by intro a ha; obtain ⟨p, hp, rfl⟩ := List.mem_map.1 ha; exact mul_nonneg (hw p hp).le (hx0 p hp))
  have b1 : V1 ≤ j2 * V0 := by
    rw [e1, e0, ← listSum_mul]
    refine listSum_le _ _ _ fun p hp => ?_
    rw [mul_comm]
    exact mul_le_mul_of_nonneg_right (hx2 p hp) (hw p hp).le
  have b2 : V2 ≤ j2 ^ 2 * V0 := by
    rw [e2, e0, ← listSum_mul]
    refine listSum_le _ _ _ fun p hp => ?_
    rw [mul_comm]
    refine mul_le_mul_of_nonneg_right ?_ (hw p hp).le
    have := mul_le_mul (hx2 p hp) (hx2 p hp) (hx0 p hp) (by positivity)
    linarith
  have bD : V0 ^ 2 / (2 * ρ) ≤ D := by
    have := det_ge (n := l.length) (fun i => x l[i]) (fun i => w l[i]) (fun i => (hw _ (List.getElem_mem _)).le) (by
      intro a b hab
      have ha : (a : ℕ) < (l.map x).length := by simp
      have hb : (b : ℕ) < (l.map x).length := by simp
      have := (List.Nodup.getElem_inj_iff hnd (i := a) (hi := ha) (j := b) (hj := hb)).1 (by simpa using hab)
      exact Fin.ext this) hρ (by
      intro i
      have := hb l[i] (List.getElem_mem _)
      rw [listSum_ofFn] at this
      exact this)
    rw [eD, e0, e1, e2, listSum_ofFn, listSum_ofFn, listSum_ofFn]
    exact this
  have hD : 0 < D := lt_of_lt_of_le (by positivity) bD
  have c1 : (V0 * V2 + V1 * V1) / D ≤ 4 * ρ * j2 ^ 2 := by
    rw [div_le_iff₀ hD]
    have t1 : V0 * V2 ≤ V0 * (j2 ^ 2 * V0) := mul_le_mul_of_nonneg_left b2 p0'.le
    have t2 : V1 * V1 ≤ (j2 * V0) * (j2 * V0) := mul_le_mul b1 b1 p1 (by positivity)
    have t3 : 4 * ρ * j2 ^ 2 * (V0 ^ 2 / (2 * ρ)) ≤ 4 * ρ * j2 ^ 2 * D := mul_le_mul_of_nonneg_left bD (by positivity)
    have t4 : 4 * ρ * (j2:ℝ) ^ 2 * (V0 ^ 2 / (2 * ρ)) = 2 * (j2 ^ 2 * V0 ^ 2) := by field_simp; ring
    nlinarith
  have c2 : 2 * V0 * V1 / D ≤ 4 * ρ * j2 := by
    rw [div_le_iff₀ hD]
    have t1 : V0 * V1 ≤ V0 * (j2 * V0) := mul_le_mul_of_nonneg_left b1 p0'.le
    have t3 : 4 * ρ * j2 * (V0 ^ 2 / (2 * ρ)) ≤ 4 * ρ * j2 * D := mul_le_mul_of_nonneg_left bD (by positivity)
    have t4 : 4 * ρ * (j2:ℝ) * (V0 ^ 2 / (2 * ρ)) = 2 * (j2 * V0 ^ 2) := by field_simp; ring
    nlinarith
  have hρ1 : 1 ≤ ρ := by
    have := hb p0 hp0
    rw [← e0] at this
    have hw0 := hw p0 hp0
    by_contra hlt
    push Not at hlt
    nlinarith
  have hcast : ((2 * l.length + 4 : ℕ) : ℝ) = 2 * (j2 - j1 + 3) := by push_cast; rw [hlen]; ring
  have hgu : ((2 * l.length + 4 : ℕ) : ℝ) * M.u ≤ 1 := by
    rw [hcast]
    refine le_trans ?_ hu
    refine mul_le_mul_of_nonneg_right ?_ hu0
    have hj : (1:ℝ) ≤ (j2:ℝ) ^ 2 := one_le_pow₀ hj2
    have : (1:ℝ) ≤ ρ * j2 ^ 2 := by nlinarith
    nlinarith
  have hgam := M.gam_le hgu
  rw [hcast] at hgam
  obtain ⟨ε, eε⟩ : ∃ ε : ℝ, ε = 16 * ρ * j2 ^ 2 * (j2 - j1 + 3) * M.u := ⟨_, rfl⟩
  have hε : (V0 * V2 + V1 * V1) / D * M.gam (2 * l.length + 4) ≤ ε := by
    refine (mul_le_mul c1 hgam (M.gam_nonneg _) (by positivity)).trans (le_of_eq ?_)
    rw [eε]; ring
  have hε2 : ε ≤ 1 / 2 := by rw [eε]; linarith
  have hgk := M.gam_le hk
  obtain ⟨z, hz, hz2⟩ := slope_bound (M := M) (l := l) (x := fun p => (x p : ℝ)) (w := w) (fun p hp => (hw p hp).le) hx0 e0 e1 e2 eD hD hε hε2
    (y := y) (Y := Y) (η := M.gam k * A) (B := A) (mul_nonneg (M.gam_nonneg _) hA) (fun p hp => by
      obtain ⟨t, t1, t2, t3⟩ := hy p hp
      exact ⟨t3, t, t1, t2⟩)
  obtain ⟨s, hs, hs2⟩ := slope_bound (M := Machine.exact) (l := l) (x := fun p => (x p : ℝ)) (w := w) (fun p hp => (hw p hp).le) hx0 e0 e1 e2 eD hD
    (ε := 0) (by
      have : Machine.exact.gam (2 * l.length + 4) = 0 := by unfold Machine.gam; show (1 + (0:ℝ)) ^ _ - 1 = 0; simp
      rw [this, mul_zero]) (by norm_num)
    (y := y0) (Y := Y) (η := 0) (B := A) le_rfl (fun p hp => by
      obtain ⟨t, t1, t2, t3⟩ := hy p hp
      exact ⟨t3, Y p, hy0 p hp, by simp⟩)
  have hs3 : s = (l.map fun p => w p * (V0 * (x p : ℝ) - V1) / D * Y p).sum := by
    have : |s - (l.map fun p => w p * (V0 * (x p : ℝ) - V1) / D * Y p).sum| ≤ 0 := hs2.trans (le_of_eq (by ring))
    exact sub_eq_zero.1 (abs_nonpos_iff.1 this)
  have hex : Machine.exact.slopeL l (fun p => (x p : ℝ)) w y0 = slopeL l (fun p => (x p : ℝ)) w y0 := rfl
  rw [hex] at hs
  refine ⟨z, s, hz, hs, ?_, ?_⟩
  · rw [hs3]
    refine hz2.trans ?_
    have i1 : 12 * ε * A + 7 * (M.gam k * A) ≤ (192 * ρ * j2 ^ 2 * (j2 - j1 + 3) + 14 * k) * M.u * A := by
      have : M.gam k * A ≤ 2 * (k * M.u) * A := mul_le_mul_of_nonneg_right hgk hA
      have e : (192 * ρ * j2 ^ 2 * (j2 - j1 + 3) + 14 * k) * M.u * A = 12 * ε * A + 7 * (2 * (k * M.u) * A) := by rw [eε]; ring
      rw [e]
      linarith
    have i0 : 0 ≤ 12 * ε * A + 7 * (M.gam k * A) := by
      have : 0 ≤ ε := by rw [eε]; positivity
      have := M.gam_nonneg k
      positivity
    refine (mul_le_mul c2 i1 i0 (by positivity)).trans (le_of_eq ?_)
    unfold roundErr
    ring
  · rw [hs3]
    have k1 : |(l.map fun p => w p * (V0 * (x p : ℝ) - V1) / D * Y p).sum| ≤ (l.map fun p => w p * (V0 * (x p : ℝ) + V1) / D * A).sum := by
      refine listSum_abs_le _ _ _ fun p hp => ?_
      obtain ⟨t, t1, t2, t3⟩ := hy p hp
      rw [abs_mul, abs_div, abs_mul, abs_of_pos (hw p hp), abs_of_pos hD]
      refine mul_le_mul (div_le_div_of_nonneg_right (mul_le_mul_of_nonneg_left ?_ (hw p hp).le) hD.le) t3 (abs_nonneg _) ?_
      · have := mul_nonneg p0'.le (hx0 p hp)
        rw [abs_le]; constructor <;> linarith
      · have := mul_nonneg p0'.le (hx0 p hp)
        have := hw p hp
        positivity
    refine k1.trans ?_
    have : (l.map fun p => w p * (V0 * (x p : ℝ) + V1) / D * A) = l.map fun p => (A / D) * (V0 * (w p * (x p : ℝ)) + V1 * w p) :=
      List.map_congr_left fun p _ => by ring
    rw [this, listSum_mul, ← listSum_add, listSum_mul, listSum_mul, ← e0, ← e1]
    refine le_trans (le_of_eq ?_) (mul_le_mul_of_nonneg_right c2 hA)
    ring

end

end MFA
