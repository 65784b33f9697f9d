import Verif.Lemmas.Embed

/-!
# `gaussian_cme` as a linear function of its noise, and its covariance
-/

namespace MFA

open Classical Finset MeasureTheory

noncomputable section

variable {R : ℕ}

/-- The complex coefficient of the noise value `k` in sample `n`. -/
def cmeCoef (cov : List ℝ) (n k : ℕ) : ℂ :=
  csqrt ((cosSpectrum cov k : ℂ) / ((2 * cov.length - 2 : ℕ) : ℂ)) * ee (2 * cov.length - 2) (-((n : ℤ) * k))

theorem embedSpectrum_getD (cov : List ℝ) (h : 2 ≤ cov.length) (k : ℕ) (hk : k < 2 * cov.length - 2) :
    (embedSpectrum cov)[k]? = some (cosSpectrum cov k : ℂ) := by
  rw [embedSpectrum, List.getElem?_map, List.getElem?_range (by rw [embed_length cov h]; exact hk)]
  simp [dft_embed cov h]

/-- `gaussian_cme` on a noise array of the right size. -/
theorem cmeFrom_eq (cov : List ℝ) (h : 2 ≤ cov.length) (z : CArr R) (hz : z.length = 2 * cov.length - 2) :
    cmeFrom cov cov.length z = .ok ((List.range cov.length).map fun (n : ℕ) (r : Fin R) =>
      ∑ k ∈ range (2 * cov.length - 2), ((z.getD k fun _ => 0) r * cmeCoef cov n k).re) := by
  have hb : z.length = (embedSpectrum cov).length := by rw [hz, embedSpectrum_length cov h]
  have hM : 2 * cov.length - 2 ≠ 0 := by omega
  unfold cmeFrom bcast
  rw [if_pos hb]
  simp only []
  set y : CArr R := List.zipWith (fun (row : Fin R → ℂ) (l : ℂ) => fun r => row r
    * csqrt (l / ((2 * cov.length - 2 : ℕ) : ℂ))) z (embedSpectrum cov) with hy
  have hylen : y.length = 2 * cov.length - 2 := by rw [hy, List.length_zipWith, ← hb, hz, min_self]
  unfold fftRows
  rw [if_neg (by rw [hylen]; exact hM)]
  simp only [hylen]
  congr 1
  apply List.ext_getElem
  · simp; omega
  · intro n h1 h2
    simp only [List.getElem_take, List.getElem_map, List.getElem_range]
    funext r
    have hcl : (ccol y r).length = 2 * cov.length - 2 := by rw [ccol, List.length_map, hylen]
    rw [dft_eq, hcl, Complex.re_sum]
    refine sum_congr rfl fun k hk => ?_
    have hk' : k < 2 * cov.length - 2 := by simpa using hk
    congr 1
    have hyk : (ccol y r).getD k 0 = (z.getD k fun _ => 0) r
        * csqrt ((cosSpectrum cov k : ℂ) / ((2 * cov.length - 2 : ℕ) : ℂ)) := by
      rw [List.getD_eq_getElem?_getD, ccol, List.getElem?_map, hy, List.getElem?_zipWith,
        embedSpectrum_getD cov h k hk', List.getD_eq_getElem?_getD,
        List.getElem?_eq_getElem (by rw [hz]; exact hk')]
      simp
    rw [hyk, cmeCoef, mul_assoc]

/-- The (unnormalised) covariance produced by `gaussian_cme`: the modulus of the spectrum enters. -/
theorem cmeCoef_inner (cov : List ℝ) (h : 2 ≤ cov.length) (n m k : ℕ) :
    (cmeCoef cov n k).re * (cmeCoef cov m k).re + (cmeCoef cov n k).im * (cmeCoef cov m k).im
      = |cosSpectrum cov k| / ((2 * cov.length - 2 : ℕ) : ℝ)
        * Real.cos (2 * Real.pi * ((k : ℝ) * ((n : ℝ) - m)) / ((2 * cov.length - 2 : ℕ) : ℝ)) := by
  set M := 2 * cov.length - 2 with hM
  have hM0 : M ≠ 0 := by omega
  have h1 : (cmeCoef cov n k).re * (cmeCoef cov m k).re + (cmeCoef cov n k).im * (cmeCoef cov m k).im
      = (cmeCoef cov n k * (starRingEnd ℂ) (cmeCoef cov m k)).re := by
    simp [Complex.mul_re]
  rw [h1, cmeCoef, cmeCoef, map_mul, ee_conj]
  set s := csqrt ((cosSpectrum cov k : ℂ) / (M : ℂ)) with hs
  have h2 : s * ee M (-((n : ℤ) * k)) * ((starRingEnd ℂ) s * ee M (- -((m : ℤ) * k)))
      = ((Complex.normSq s : ℝ) : ℂ) * ee M (-((k : ℤ) * ((n : ℤ) - m))) := by
    rw [← Complex.mul_conj]
    have : ee M (-((k : ℤ) * ((n : ℤ) - m))) = ee M (-((n : ℤ) * k)) * ee M (- -((m : ℤ) * k)) := by
      rw [← ee_add]; congr 1; ring
    rw [this]; ring
  rw [h2, Complex.re_ofReal_mul, ee_re, hs, csqrt_normSq]
  congr 1
  · rw [norm_div, Complex.norm_real, Real.norm_eq_abs, show (M : ℂ) = ((M : ℝ) : ℂ) by push_cast; rfl,
      Complex.norm_real, Real.norm_eq_abs, abs_of_nonneg (Nat.cast_nonneg (α := ℝ) M)]
  · rw [← Real.cos_neg]; congr 1; push_cast; ring

theorem randn_getD (R n : ℕ) (g : Rng) (k : ℕ) (hk : k < n) (r : Fin R) :
    ((randn R n g).getD k fun _ => 0) r = g (k * R + r) := by
  rw [List.getD_eq_getElem?_getD, randn, List.getElem?_map, List.getElem?_range hk]
  simp

theorem randn_length (R n : ℕ) (g : Rng) : (randn R n g).length = n := by simp [randn]

theorem complexNoise_length (R N : ℕ) (g : Rng) : (complexNoise R N g).length = 2 * N - 2 := by
  simp [complexNoise, randn_length]

theorem complexNoise_getD (R N : ℕ) (g : Rng) (k : ℕ) (hk : k < 2 * N - 2) (r : Fin R) :
    ((complexNoise R N g).getD k fun _ => 0) r
      = (g (k * R + r) : ℂ) + Complex.I * (g ((2 * N - 2) * R + (k * R + r)) : ℂ) := by
  have h1 := randn_getD R (2 * N - 2) g k hk r
  have h2 := randn_getD R (2 * N - 2) (g.skip ((2 * N - 2) * R)) k hk r
  rw [List.getD_eq_getElem?_getD, List.getElem?_eq_getElem (by rw [randn_length]; exact hk)] at h1 h2
  rw [List.getD_eq_getElem?_getD, complexNoise, List.getElem?_zipWith,
    List.getElem?_eq_getElem (by rw [randn_length]; exact hk), List.getElem?_eq_getElem (by rw [randn_length]; exact hk)]
  simp only [Option.getD_some] at h1 h2 ⊢
  rw [h1, h2, Rng.skip]

/-- Position in the random stream of the real (`false`) and imaginary (`true`) part of noise value `k` of realisation `r`. -/
def noisePos (N R : ℕ) (r : Fin R) (i : ℕ × Bool) : ℕ :=
  if i.2 then (2 * N - 2) * R + (i.1 * R + r) else i.1 * R + r

/-- Its real coefficient in sample `n`. -/
def noiseCoef (cov : List ℝ) (n : ℕ) (i : ℕ × Bool) : ℝ :=
  if i.2 then -(cmeCoef cov n i.1).im else (cmeCoef cov n i.1).re

theorem flat_pos_inj {R a b : ℕ} {r r' : Fin R} : a * R + (r : ℕ) = b * R + (r' : ℕ) ↔ a = b ∧ r = r' := by
  constructor
  · intro h
    have h1 : (a * R + (r : ℕ)) / R = (b * R + (r' : ℕ)) / R := by rw [h]
    have hR : 0 < R := by have := r.isLt; omega
    rw [mul_comm a, mul_comm b, Nat.mul_add_div hR, Nat.mul_add_div hR, Nat.div_eq_of_lt r.isLt,
      Nat.div_eq_of_lt r'.isLt] at h1
    have : a = b := by omega
    subst this
    exact ⟨rfl, Fin.ext (by omega)⟩
  · rintro ⟨rfl, rfl⟩; rfl

theorem flat_pos_lt {R a n : ℕ} (r : Fin R) (h : a < n) : a * R + (r : ℕ) < n * R := by
  have h1 : (a + 1) * R ≤ n * R := Nat.mul_le_mul_right _ h
  rw [add_mul, one_mul] at h1
  have := r.isLt
  omega

theorem noisePos_inj {N R : ℕ} {r r' : Fin R} {i k : ℕ × Bool} (hi : i.1 < 2 * N - 2) (hk : k.1 < 2 * N - 2) :
    noisePos N R r i = noisePos N R r' k ↔ i = k ∧ r = r' := by
  obtain ⟨i, bi⟩ := i
  obtain ⟨k, bk⟩ := k
  have hi' := flat_pos_lt r hi
  have hk' := flat_pos_lt r' hk
  unfold noisePos
  cases bi <;> cases bk <;> simp only [Prod.mk.injEq, Bool.false_eq_true, if_false, if_true, and_true, and_false,
    false_and, reduceCtorEq] at hi' hk' ⊢
  · exact flat_pos_inj
  · exact ⟨fun h => by exfalso; omega, fun h => h.elim⟩
  · exact ⟨fun h => by exfalso; omega, fun h => h.elim⟩
  · rw [Nat.add_left_cancel_iff]; exact flat_pos_inj

theorem gaussianCme_eq (cov : List ℝ) (h : 2 ≤ cov.length) (g : Rng) :
    gaussianCme (R := R) cov cov.length none g = .ok
      { x := (List.range cov.length).map fun (n : ℕ) (r : Fin R) =>
          ∑ i ∈ range (2 * cov.length - 2) ×ˢ (Finset.univ : Finset Bool),
            noiseCoef cov n i * g (noisePos cov.length R r i)
        warned := cmeWarns cov
        rng := g.skip (2 * ((2 * cov.length - 2) * R)) } := by
  have hne : cov ≠ [] := by rintro rfl; simp at h
  unfold gaussianCme
  rw [if_neg hne, if_neg (by omega)]
  simp only []
  rw [cmeFrom_eq cov h _ (complexNoise_length R _ g)]
  simp only [Except.ok.injEq, Sim.mk.injEq, and_true]
  congr 1
  funext n r
  rw [sum_product]
  refine sum_congr rfl fun k hk => ?_
  rw [complexNoise_getD R _ g k (by simpa using hk) r]
  simp [noiseCoef, noisePos, Complex.mul_re]
  ring

theorem range_map_getD {α : Type} (N : ℕ) (f : ℕ → α) (d : α) (n : ℕ) (hn : n < N) :
    ((List.range N).map f).getD n d = f n := by
  rw [List.getD_eq_getElem?_getD, List.getElem?_map, List.getElem?_range hn]; rfl

end

end MFA
