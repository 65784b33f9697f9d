import Verif.Lemmas.Cme
import Verif.Lemmas.Noise

/-!
# C70: circulant embedding
-/

namespace MFA

open Classical Finset MeasureTheory

noncomputable section

variable {R : ℕ} {Ω : Type*} [MeasurableSpace Ω] {μ : Measure Ω} {g : Ω → ℕ → ℝ}

/-- `x` is the random array that the simulator `f` returns when the random stream is `g` (it never raises). -/
def Returns (f : Rng → Except PyErr (Sim R)) (g : Ω → ℕ → ℝ) (x : Ω → RArr R) : Prop :=
  ∀ ω, ∃ s, f (g ω) = .ok s ∧ s.x = x ω

/-- The simulator does not warn (whatever the random stream). -/
def NoWarning (f : Rng → Except PyErr (Sim R)) : Prop := ∀ g s, f g = .ok s → s.warned = false

theorem cmeWarns_iff (cov : List ℝ) (h : 2 ≤ cov.length) :
    cmeWarns cov = false ↔ ∀ k < 2 * cov.length - 2, 0 ≤ cosSpectrum cov k := by
  unfold cmeWarns
  rw [decide_eq_false_iff_not]
  constructor
  · intro hw k hk
    by_contra hc
    refine hw ⟨_, List.mem_of_getElem? (embedSpectrum_getD cov h k hk), ?_⟩
    rw [Complex.ofReal_re]; linarith
  · rintro hk ⟨l, hl, hneg⟩
    obtain ⟨k, hk', rfl⟩ := List.mem_iff_getElem.mp hl
    have hk2 : k < 2 * cov.length - 2 := by rwa [embedSpectrum_length cov h] at hk'
    have h1 := embedSpectrum_getD cov h k hk2
    rw [List.getElem?_eq_getElem hk'] at h1
    rw [Option.some.inj h1, Complex.ofReal_re] at hneg
    linarith [hk k hk2]

/-- The covariance that circulant embedding produces from any white noise: the modulus of the spectrum replaces the
spectrum. -/
def cmeCovariance (cov : List ℝ) (n m : ℕ) : ℝ :=
  (∑ k ∈ range (2 * cov.length - 2), |cosSpectrum cov k|
    * Real.cos (2 * Real.pi * ((k : ℝ) * ((n : ℝ) - m)) / ((2 * cov.length - 2 : ℕ) : ℝ))) / ((2 * cov.length - 2 : ℕ) : ℝ)

theorem cme_hasCovariance (cov : List ℝ) (h : 2 ≤ cov.length) (hg : WhiteNoise μ g) :
    ∃ x : Ω → RArr R, Returns (gaussianCme cov cov.length none) g x ∧
      HasCovariance μ cov.length x (cmeCovariance cov) := by
  refine ⟨fun ω => (List.range cov.length).map fun (n : ℕ) (r : Fin R) =>
      ∑ i ∈ range (2 * cov.length - 2) ×ˢ (Finset.univ : Finset Bool),
        noiseCoef cov n i * g ω (noisePos cov.length R r i),
    fun ω => ⟨_, gaussianCme_eq cov h (g ω), rfl⟩, ?_⟩
  refine ⟨fun ω => by simp, ?_, ?_, ?_, ?_⟩
  · intro n hn r
    simp_rw [range_map_getD _ _ _ _ hn]
    exact hg.integrable_lin _ _ _
  · intro n hn r
    simp_rw [range_map_getD _ _ _ _ hn]
    exact hg.mean_lin _ _ _
  · intro n hn m hm r r'
    simp_rw [range_map_getD _ _ _ _ hn, range_map_getD _ _ _ _ hm]
    exact hg.integrable_mul_lin _ _ _ _ _ _
  · intro n hn m hm r r'
    simp_rw [range_map_getD _ _ _ _ hn, range_map_getD _ _ _ _ hm]
    rw [hg.cov_lin]
    have h1 : ∀ i ∈ range (2 * cov.length - 2) ×ˢ (Finset.univ : Finset Bool),
        ∑ k ∈ range (2 * cov.length - 2) ×ˢ (Finset.univ : Finset Bool), noiseCoef cov n i * noiseCoef cov m k
          * (if noisePos cov.length R r i = noisePos cov.length R r' k then 1 else 0)
        = if r = r' then noiseCoef cov n i * noiseCoef cov m i else 0 := by
      intro i hi
      have hi' : i.1 < 2 * cov.length - 2 := by simpa using (mem_product.mp hi).1
      rw [sum_congr rfl (g := fun k => if i = k then (if r = r' then noiseCoef cov n i * noiseCoef cov m i else 0) else 0)]
      · rw [sum_ite_eq, if_pos hi]
      · intro k hk
        have hk' : k.1 < 2 * cov.length - 2 := by simpa using (mem_product.mp hk).1
        rw [if_congr (noisePos_inj hi' hk') rfl rfl]
        by_cases hik : i = k
        · subst hik; by_cases hr : r = r' <;> simp [hr]
        · simp [hik]
    rw [sum_congr rfl h1]
    by_cases hr : r = r'
    · simp only [if_pos hr]
      rw [sum_product, cmeCovariance, sum_div]
      refine sum_congr rfl fun k _ => ?_
      rw [Fintype.sum_bool]
      simp only [noiseCoef, if_true, Bool.false_eq_true, if_false]
      have := cmeCoef_inner cov h n m k
      rw [div_mul_eq_mul_div] at this
      rw [← this]; ring
    · simp [hr]

/-- **C70**.  For every autocovariance sequence `cov` of at least two values and every white noise, `gaussian_cme` returns `N`
samples per realisation that have mean zero, and whose covariance is exactly the requested one if and only if the call emits no
warning (non-negative spectrum of the embedding). -/
theorem C70_exact_iff_no_warning (cov : List ℝ) (h : 2 ≤ cov.length) (hg : WhiteNoise μ g) (hR : R ≠ 0) :
    ∃ x : Ω → RArr R, Returns (gaussianCme cov cov.length none) g x ∧
      (HasCovariance μ cov.length x (fun n m => cov.getD (Int.natAbs ((n : ℤ) - m)) 0)
        ↔ NoWarning (gaussianCme (R := R) cov cov.length none)) := by
  obtain ⟨x, hx, hcov⟩ := cme_hasCovariance (R := R) cov h hg
  refine ⟨x, hx, ?_⟩
  have hM : (0 : ℝ) < ((2 * cov.length - 2 : ℕ) : ℝ) := by exact_mod_cast (by omega : 0 < 2 * cov.length - 2)
  have hnw : NoWarning (gaussianCme (R := R) cov cov.length none) ↔ cmeWarns cov = false := by
    constructor
    · intro hn; exact hn (fun _ => 0) _ (gaussianCme_eq cov h _)
    · intro hc g s hs
      rw [gaussianCme_eq cov h g] at hs
      cases hs; exact hc
  rw [hnw, cmeWarns_iff cov h]
  constructor
  · intro hr k hk
    have r0 : Fin R := ⟨0, Nat.pos_of_ne_zero hR⟩
    have h1 := hr.cov 0 (by omega) 0 (by omega) r0 r0
    rw [hcov.cov 0 (by omega) 0 (by omega) r0 r0, if_pos rfl, if_pos rfl, cmeCovariance, div_eq_iff hM.ne', mul_comm (List.getD _ _ _)] at h1
    rw [← spectrum_inversion cov h 0 0 (by omega) (by omega)] at h1
    simp only [sub_self, mul_zero, zero_div, Real.cos_zero, mul_one] at h1
    have h2 : ∀ i ∈ range (2 * cov.length - 2), cosSpectrum cov i ≤ |cosSpectrum cov i| := fun i _ => le_abs_self _
    have h3 := (sum_eq_sum_iff_of_le h2).mp h1.symm k (by simpa using hk)
    rw [h3]; exact abs_nonneg _
  · intro hk
    have hΓ : ∀ n < cov.length, ∀ m < cov.length, cmeCovariance cov n m = cov.getD (Int.natAbs ((n : ℤ) - m)) 0 := by
      intro n hn m hm
      rw [cmeCovariance, div_eq_iff hM.ne', mul_comm (List.getD _ _ _), ← spectrum_inversion cov h n m hn hm]
      refine sum_congr rfl fun k hk' => ?_
      rw [abs_of_nonneg (hk k (by simpa using hk'))]
    refine ⟨hcov.length, hcov.integrable1, hcov.mean, hcov.integrable, ?_⟩
    intro n hn m hm r r'
    rw [hcov.cov n hn m hm r r', hΓ n hn m hm]

/-- When the call does warn, the variance of every sample is strictly larger than requested. -/
theorem C70_warning_inflates_variance (cov : List ℝ) (h : 2 ≤ cov.length) (hg : WhiteNoise μ g)
    (hw : ¬ NoWarning (gaussianCme (R := R) cov cov.length none)) :
    ∃ x : Ω → RArr R, Returns (gaussianCme cov cov.length none) g x ∧
      ∀ n < cov.length, ∀ r, cov.getD 0 0 < ∫ ω, ((x ω).getD n fun _ => 0) r * ((x ω).getD n fun _ => 0) r ∂μ := by
  obtain ⟨x, hx, hcov⟩ := cme_hasCovariance (R := R) cov h hg
  refine ⟨x, hx, fun n hn r => ?_⟩
  have hM : (0 : ℝ) < ((2 * cov.length - 2 : ℕ) : ℝ) := by exact_mod_cast (by omega : 0 < 2 * cov.length - 2)
  have hw' : ¬ ∀ k < 2 * cov.length - 2, 0 ≤ cosSpectrum cov k := by
    intro hk
    apply hw
    intro g s hs
    rw [gaussianCme_eq cov h g] at hs
    cases hs; exact (cmeWarns_iff cov h).mpr hk
  push Not at hw'
  obtain ⟨k, hk, hneg⟩ := hw'
  rw [hcov.cov n hn n hn r r, if_pos rfl, cmeCovariance, lt_div_iff₀ hM, mul_comm (List.getD _ _ _)]
  have h0 := spectrum_inversion cov h 0 0 (by omega) (by omega)
  simp only [sub_self, mul_zero, zero_div, Real.cos_zero, mul_one, Int.natAbs_zero] at h0 ⊢
  rw [← h0]
  refine sum_lt_sum (fun i _ => le_abs_self _) ⟨k, by simpa using hk, ?_⟩
  rw [abs_of_neg hneg]; linarith

end

end MFA
