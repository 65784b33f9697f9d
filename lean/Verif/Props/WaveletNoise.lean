import Verif.Lemmas.Ortho
import Verif.Lemmas.Gaussian
import Verif.Props.FilterBank
import Verif.Props.Psd
import Verif.Props.SimulGauss

/-!
# Properties C88, C89: wavelet coefficients of random signals

C88: second order statistics of the coefficients of any centred random signal; white noise through an orthonormal wavelet gives
white noise at every scale, and a flat wavelet PSD.  C89: signals with stationary increments (fractional Brownian motion in
particular) have stationary coefficients.
-/

namespace MFA

open Classical Finset MeasureTheory ProbabilityTheory

noncomputable section

variable {R : ℕ} {Ω : Type*} [MeasurableSpace Ω] {μ : Measure Ω} {N : ℕ} {x : Ω → List (Fin R → ℝ)} {p : PExp} {wt : Wavelet} {j1 : ℤ}
  {j2 : Option ℝ} {g nm : ℝ} {weighted : Bool} {w : Ω → WT R}

theorem asFloats_sampled {a : List (Fin R → ℝ)} (h : a.length = N) :
    asFloats a = sampled N fun r t => (a.getD t.toNat fun _ => 0) r := by
  subst h
  rw [asFloats, sampled]
  apply List.ext_getElem
  · simp
  · intro i h1 h2
    simp only [List.getElem_map, List.getElem_range]
    have hi : i < a.length := by simpa using h1
    funext r
    simp [List.getD, hi]

/-- The coefficients reported on one signal are reported on every signal of the same length. -/
theorem reported_iff (hwt : wt.Valid) {y y' : Fin R → ℤ → ℝ} {w w' : WT R}
    (h : waveletAnalysis (sampled N y) p wt j1 j2 g nm weighted = .ok w)
    (h' : waveletAnalysis (sampled N y') p wt j1 j2 g nm weighted = .ok w') {j k : ℕ} {r : Fin R} (r' : Fin R)
    (hr : w.wt_coefs.Reported j k r) : w'.wt_coefs.Reported j k r' := by
  have hR : R ≠ 0 := fun h0 => by subst h0; exact r.elim0
  obtain ⟨ml, K, Kc, h1, h2, h3, h4, h5, -⟩ := wa_finite hwt hR h
  obtain ⟨ml', K', Kc', h1', h2', h3', h4', h5', -⟩ := wa_finite hwt hR h'
  rw [h1] at h1'
  cases h1'
  have hKK : K = K' := h2.unique h2'
  subst hKK
  have hKc : Kc = Kc' := by rw [h3, h3']
  subst hKc
  obtain ⟨t, ht⟩ := hr
  have e : ∀ (y : Fin R → ℤ → ℝ) (r : Fin R), (scalesUpTo .coef g (coefSeq (wparams wt g nm) (sampled N y)) Kc).val? j k r =
      if 1 ≤ j ∧ j ≤ Kc ∧ k < N / 2 ^ j then
      some (if Bord N wt.dec_hi.length j k then Fl.nan
        else Fl.fin ((2:ℝ) ^ ((j : ℝ) * (1 / 2 - 1 / nm + g)) * idealDetail wt (y r) j k)) else none := by
    intro y r
    rw [scalesUpTo_val]
    by_cases hs : 1 ≤ j ∧ j ≤ Kc
    · rw [coefSeq_length _ _ _ hs.1, sampled_length]
      by_cases hk : k < N / 2 ^ j
      · rw [if_pos ⟨hs.1, hs.2, hk⟩, if_pos ⟨hs.1, hs.2, hk⟩,
          coef_ent wt hwt g nm y r hs.1 (fun i hi => by have := level_room h1 (i := i) (by omega); omega) hk,
          scaleFactor_eq]
        congr 1
        by_cases hb : Bord N wt.dec_hi.length j k
        · rw [if_pos hb]; exact if_pos hb
        · rw [if_neg hb]; exact if_neg hb
      · rw [if_neg (fun hh => hk hh.2.2), if_neg (fun hh => hk hh.2.2)]
    · rw [if_neg (fun hh => hs ⟨hh.1, hh.2.1⟩), if_neg (fun hh => hs ⟨hh.1, hh.2.1⟩)]
  rw [h5, e] at ht
  split at ht
  · rename_i hc
    rw [Option.some.injEq] at ht
    by_cases hb : Bord N wt.dec_hi.length j k
    · rw [if_pos hb] at ht; cases ht
    · exact ⟨_, by rw [h5', e, if_pos hc, if_neg hb]⟩
  · cases ht

/-- A reported coefficient is a linear combination of the samples, with weights that do not depend on them. -/
theorem reported_linear (hwt : wt.Valid) {y : Fin R → ℤ → ℝ} {w : WT R}
    (h : waveletAnalysis (sampled N y) p wt j1 j2 g nm weighted = .ok w) {j k : ℕ} {r : Fin R}
    (hr : w.wt_coefs.Reported j k r) : 1 ≤ j ∧
    w.wt_coefs.number j k r = (2:ℝ) ^ ((j : ℝ) * (1 / 2 - 1 / nm + g)) * idealDetail wt (y r) j k ∧
    ∀ z : ℤ → ℝ, idealDetail wt z j k = ∑ t ∈ range N, weight wt j k t * z t := by
  obtain ⟨t, ht⟩ := hr
  have hid := C08_ideal hwt h ht (by simp)
  refine ⟨?_, ?_, ?_⟩
  · obtain ⟨Kc, hh⟩ := coef_val hwt h
    rw [hh] at ht
    split at ht
    · rename_i hc; exact hc.1
    · cases ht
  · rw [MRQ.number, ht]
    rw [Fl.fin_inj] at hid; exact hid
  · intro z
    have ext : ∀ u : ℤ → ℝ, (∀ t : ℕ, t < N → u t = 0) → idealDetail wt u j k = 0 := by
      intro u hu
      have h1 := C08_any_extension (y := fun r' t => y r' t + u t) (fun r' t ht => by rw [hu t ht, add_zero]) hwt h ht (by simp)
      have h2 := idealDetail_linear wt 1 1 (y r) u j k
      simp only [one_mul] at h2
      rw [h2] at h1
      linarith
    have h1 := ext (fun s => 1 * z s + (-1) * ∑ t ∈ range N, z t * if s = (t : ℤ) then 1 else 0) (by
      intro t ht
      simp [ht])
    rw [idealDetail_linear, idealDetail_sum] at h1
    rw [one_mul, neg_one_mul, add_neg_eq_zero] at h1
    rw [h1]
    exact sum_congr rfl fun t _ => mul_comm _ _

theorem random_linear (hwt : wt.Valid) (hl : ∀ ω, (x ω).length = N)
    (hw : ∀ ω, waveletAnalysis (asFloats (x ω)) p wt j1 j2 g nm weighted = .ok (w ω)) {ω₀ : Ω} {j k : ℕ} {r₀ : Fin R}
    (hr : (w ω₀).wt_coefs.Reported j k r₀) : 1 ≤ j ∧ (∀ ω r, (w ω).wt_coefs.Reported j k r) ∧
    (∀ ω r, (w ω).wt_coefs.number j k r = (2:ℝ) ^ ((j : ℝ) * (1 / 2 - 1 / nm + g)) * ∑ t ∈ range N, weight wt j k t * sample x t r ω) ∧
    ∀ z : ℤ → ℝ, idealDetail wt z j k = ∑ t ∈ range N, weight wt j k t * z t := by
  have h0 : ∀ ω, waveletAnalysis (sampled N fun r t => ((x ω).getD t.toNat fun _ => 0) r) p wt j1 j2 g nm weighted = .ok (w ω) :=
    fun ω => by rw [← asFloats_sampled (hl ω)]; exact hw ω
  have hrep : ∀ ω r, (w ω).wt_coefs.Reported j k r := fun ω r => reported_iff hwt (h0 ω₀) (h0 ω) r hr
  refine ⟨(reported_linear hwt (h0 ω₀) hr).1, hrep, fun ω r => ?_, (reported_linear hwt (h0 ω₀) hr).2.2⟩
  obtain ⟨-, h1, h2⟩ := reported_linear hwt (h0 ω) (hrep ω r)
  rw [h1, h2]
  rfl

/-- **C88**: which coefficients are reported does not depend on the outcome nor on the realisation. -/
theorem C88_pattern (hwt : wt.Valid) (hl : ∀ ω, (x ω).length = N)
    (hw : ∀ ω, waveletAnalysis (asFloats (x ω)) p wt j1 j2 g nm weighted = .ok (w ω)) (ω ω' : Ω) (j k : ℕ) (r r' : Fin R) :
    (w ω).wt_coefs.Reported j k r ↔ (w ω').wt_coefs.Reported j k r' :=
  ⟨fun h => (random_linear hwt hl hw h).2.1 ω' r', fun h => (random_linear hwt hl hw h).2.1 ω r⟩

/-- **C88**, any centred signal: the reported coefficients are centred, and their covariance is the covariance of the signal
transformed by the weights of the samples (the coefficients of an impulse).  Coefficients of different realisations are
uncorrelated. -/
theorem C88_covariance {Γ : ℕ → ℕ → ℝ} (hwt : wt.Valid) (hx : HasCovariance μ N x Γ)
    (hw : ∀ ω, waveletAnalysis (asFloats (x ω)) p wt j1 j2 g nm weighted = .ok (w ω)) {ω₀ ω₁ : Ω} {j k j' k' : ℕ} {r₀ r₁ : Fin R}
    (hr : (w ω₀).wt_coefs.Reported j k r₀) (hr' : (w ω₁).wt_coefs.Reported j' k' r₁) (r r' : Fin R) :
    Integrable (fun ω => (w ω).wt_coefs.number j k r) μ ∧ ∫ ω, (w ω).wt_coefs.number j k r ∂μ = 0 ∧
    Integrable (fun ω => (w ω).wt_coefs.number j k r * (w ω).wt_coefs.number j' k' r') μ ∧
    ∫ ω, (w ω).wt_coefs.number j k r * (w ω).wt_coefs.number j' k' r' ∂μ = if r = r' then
      (2:ℝ) ^ ((j : ℝ) * (1 / 2 - 1 / nm + g)) * (2:ℝ) ^ ((j' : ℝ) * (1 / 2 - 1 / nm + g)) *
        ∑ s ∈ range N, ∑ t ∈ range N, weight wt j k s * weight wt j' k' t * Γ s t else 0 := by
  obtain ⟨-, -, h1, -⟩ := random_linear hwt hx.length hw hr
  obtain ⟨-, -, h2, -⟩ := random_linear hwt hx.length hw hr'
  have e1 : (fun ω => (w ω).wt_coefs.number j k r) = fun ω => (2:ℝ) ^ ((j : ℝ) * (1 / 2 - 1 / nm + g)) *
      ∑ t ∈ range N, weight wt j k t * sample x t r ω := funext fun ω => h1 ω r
  have hint : ∀ t ∈ range N, Integrable (fun ω => weight wt j k t * sample x t r ω) μ := fun t ht =>
    (hx.integrable1 t (mem_range.1 ht) r).const_mul _
  have e2 : (fun ω => (w ω).wt_coefs.number j k r * (w ω).wt_coefs.number j' k' r') = fun ω =>
      (2:ℝ) ^ ((j : ℝ) * (1 / 2 - 1 / nm + g)) * (2:ℝ) ^ ((j' : ℝ) * (1 / 2 - 1 / nm + g)) *
      ∑ s ∈ range N, ∑ t ∈ range N, weight wt j k s * weight wt j' k' t * (sample x s r ω * sample x t r' ω) := by
    funext ω
    rw [h1, h2, mul_mul_mul_comm, sum_mul_sum]
    congr 1
    exact sum_congr rfl fun s _ => sum_congr rfl fun t _ => by ring
  have hint2 : ∀ s ∈ range N, ∀ t ∈ range N,
      Integrable (fun ω => weight wt j k s * weight wt j' k' t * (sample x s r ω * sample x t r' ω)) μ := fun s hs t ht =>
    (hx.integrable s (mem_range.1 hs) t (mem_range.1 ht) r r').const_mul _
  refine ⟨?_, ?_, ?_, ?_⟩
  · rw [e1]; exact (integrable_finsetSum _ hint).const_mul _
  · rw [e1, integral_const_mul, integral_finsetSum _ hint, sum_eq_zero, mul_zero]
    intro t ht
    rw [integral_const_mul, hx.mean t (mem_range.1 ht) r, mul_zero]
  · rw [e2]; exact (integrable_finsetSum _ fun s hs => integrable_finsetSum _ (hint2 s hs)).const_mul _
  · rw [e2, integral_const_mul, integral_finsetSum _ fun s hs => integrable_finsetSum _ (hint2 s hs)]
    have : ∀ s ∈ range N, ∫ ω, ∑ t ∈ range N, weight wt j k s * weight wt j' k' t * (sample x s r ω * sample x t r' ω) ∂μ =
        ∑ t ∈ range N, weight wt j k s * weight wt j' k' t * if r = r' then Γ s t else 0 := by
      intro s hs
      rw [integral_finsetSum _ (hint2 s hs)]
      refine sum_congr rfl fun t ht => ?_
      rw [integral_const_mul, hx.cov s (mem_range.1 hs) t (mem_range.1 ht) r r']
    rw [sum_congr rfl this]
    split
    · rfl
    · simp

/-- The weights of an orthonormal wavelet are orthonormal on the samples, at the positions reported. -/
theorem weights_orthonormal (hwt : wt.Valid) (ho : OrthonormalBank wt) (hl : ∀ ω, (x ω).length = N)
    (hw : ∀ ω, waveletAnalysis (asFloats (x ω)) p wt j1 j2 g nm weighted = .ok (w ω)) {ω₀ ω₁ : Ω} {j k j' k' : ℕ} {r₀ r₁ : Fin R}
    (hr : (w ω₀).wt_coefs.Reported j k r₀) (hr' : (w ω₁).wt_coefs.Reported j' k' r₁) :
    ∑ t ∈ range N, weight wt j k t * weight wt j' k' t = if j = j' ∧ k = k' then 1 else 0 := by
  obtain ⟨hj, -, -, h1⟩ := random_linear hwt hl hw hr
  obtain ⟨hj', -, -, -⟩ := random_linear hwt hl hw hr'
  rw [← h1 (weight wt j' k'), detail_weight hwt ho hj hj']
  simp

/-- **C88**, white noise: with an orthonormal wavelet, the reported coefficients of a white noise of variance `v` are centred and
uncorrelated, across positions, scales and realisations, and those of scale `j` have the variance
`v 2^(2j(1/2 - 1/normalization + gamint))`: exactly a power law of the scale. -/
theorem C88_white_noise {v : ℝ} (hwt : wt.Valid) (ho : OrthonormalBank wt)
    (hx : HasCovariance μ N x fun n m => if n = m then v else 0)
    (hw : ∀ ω, waveletAnalysis (asFloats (x ω)) p wt j1 j2 g nm weighted = .ok (w ω)) {ω₀ ω₁ : Ω} {j k j' k' : ℕ} {r r' : Fin R}
    (hr : (w ω₀).wt_coefs.Reported j k r) (hr' : (w ω₁).wt_coefs.Reported j' k' r') :
    Integrable (fun ω => (w ω).wt_coefs.number j k r) μ ∧ ∫ ω, (w ω).wt_coefs.number j k r ∂μ = 0 ∧
    Integrable (fun ω => (w ω).wt_coefs.number j k r * (w ω).wt_coefs.number j' k' r') μ ∧
    ∫ ω, (w ω).wt_coefs.number j k r * (w ω).wt_coefs.number j' k' r' ∂μ =
      if j = j' ∧ k = k' ∧ r = r' then v * (2:ℝ) ^ (2 * (j : ℝ) * (1 / 2 - 1 / nm + g)) else 0 := by
  obtain ⟨h1, h2, h3, h4⟩ := C88_covariance hwt hx hw hr hr' r r'
  refine ⟨h1, h2, h3, h4.trans ?_⟩
  have hs : ∑ s ∈ range N, ∑ t ∈ range N, weight wt j k s * weight wt j' k' t * (if s = t then v else 0) =
      v * if j = j' ∧ k = k' then 1 else 0 := by
    rw [← weights_orthonormal hwt ho hx.length hw hr hr', mul_sum]
    refine sum_congr rfl fun s hs => ?_
    simp only [mul_ite, mul_zero, sum_ite_eq, hs, if_true]
    ring
  by_cases hr2 : r = r'
  · rw [if_pos hr2, hs]
    by_cases hjk : j = j' ∧ k = k'
    · rw [if_pos hjk, if_pos ⟨hjk.1, hjk.2, hr2⟩, mul_one, ← hjk.1, ← Real.rpow_add (by norm_num)]
      rw [mul_comm]; congr 2; ring
    · rw [if_neg hjk, if_neg (fun hh => hjk ⟨hh.1, hh.2.1⟩)]; simp
  · rw [if_neg hr2, if_neg (fun hh => hr2 hh.2.2)]

/-- Reported coefficients of a Gaussian array are jointly Gaussian. -/
theorem coefs_gaussian {Γ : ℕ → ℕ → ℝ} (hwt : wt.Valid) (hx : GaussianArray μ N x Γ)
    (hw : ∀ ω, waveletAnalysis (asFloats (x ω)) p wt j1 j2 g nm weighted = .ok (w ω)) {ω₀ : Ω} {κ : Type*} [Finite κ]
    (c : κ → ℕ × ℕ × Fin R) (hr : ∀ i, (w ω₀).wt_coefs.Reported (c i).1 (c i).2.1 (c i).2.2) :
    HasGaussianLaw (fun ω i => (w ω).wt_coefs.number (c i).1 (c i).2.1 (c i).2.2) μ := by
  have := Fintype.ofFinite κ
  let L : (Fin N × Fin R → ℝ) →L[ℝ] (κ → ℝ) := ContinuousLinearMap.pi fun i =>
    ∑ t : Fin N, ((2:ℝ) ^ (((c i).1 : ℝ) * (1 / 2 - 1 / nm + g)) * weight wt (c i).1 (c i).2.1 (t : ℕ)) •
      ContinuousLinearMap.proj (R := ℝ) (φ := fun _ : Fin N × Fin R => ℝ) (t, (c i).2.2)
  have h := hx.gaussian.map_fun L
  have he : (fun ω i => (w ω).wt_coefs.number (c i).1 (c i).2.1 (c i).2.2) =
      fun ω => L fun p : Fin N × Fin R => sample x p.1 p.2 ω := by
    funext ω i
    rw [(random_linear hwt hx.length hw (hr i)).2.2.1 ω, mul_sum, ← Fin.sum_univ_eq_sum_range
      (fun t : ℕ => (2:ℝ) ^ (((c i).1 : ℝ) * (1 / 2 - 1 / nm + g)) * (weight wt (c i).1 (c i).2.1 (t : ℕ) * sample x t (c i).2.2 ω))]
    simp only [L, ContinuousLinearMap.pi_apply, _root_.sum_apply, _root_.smul_apply,
      ContinuousLinearMap.proj_apply, smul_eq_mul]
    exact sum_congr rfl fun t _ => by ring
  rw [he]
  exact h

/-- **C88**, Gaussian white noise: the reported coefficients (any finite family of distinct ones) are independent normal variables
of mean 0 and of variance `v 2^(2j(1/2 - 1/normalization + gamint))` at scale `j`. -/
theorem C88_gaussian {v : ℝ} (hwt : wt.Valid) (ho : OrthonormalBank wt)
    (hx : GaussianArray μ N x fun n m => if n = m then v else 0)
    (hw : ∀ ω, waveletAnalysis (asFloats (x ω)) p wt j1 j2 g nm weighted = .ok (w ω)) {ω₀ : Ω} {κ : Type*} [Finite κ]
    (c : κ → ℕ × ℕ × Fin R) (hinj : Function.Injective c) (hr : ∀ i, (w ω₀).wt_coefs.Reported (c i).1 (c i).2.1 (c i).2.2) :
    iIndepFun (fun i ω => (w ω).wt_coefs.number (c i).1 (c i).2.1 (c i).2.2) μ ∧
    ∀ i, HasLaw (fun ω => (w ω).wt_coefs.number (c i).1 (c i).2.1 (c i).2.2)
      (gaussianReal 0 (v * (2:ℝ) ^ (2 * ((c i).1 : ℝ) * (1 / 2 - 1 / nm + g))).toNNReal) μ := by
  have := Fintype.ofFinite κ
  have hp := hx.gaussian.isProbabilityMeasure
  have hG := coefs_gaussian hwt hx hw c hr
  have hm : ∀ i, HasGaussianLaw (fun ω => (w ω).wt_coefs.number (c i).1 (c i).2.1 (c i).2.2) μ := fun i =>
    hG.map_fun (ContinuousLinearMap.proj (R := ℝ) (φ := fun _ : κ => ℝ) i)
  have hcov := fun i k => C88_white_noise hwt ho hx.toHasCovariance hw (hr i) (hr k)
  refine ⟨HasGaussianLaw.iIndepFun_of_covariance_eq_zero
    (X := fun i ω => (w ω).wt_coefs.number (c i).1 (c i).2.1 (c i).2.2) hG ?_, ?_⟩
  · intro i k hik
    rw [covariance_eq_sub (hm i).memLp_two (hm k).memLp_two]
    simp only [Pi.mul_apply]
    rw [(hcov i k).2.2.2, (hcov i k).2.1, zero_mul, sub_zero, if_neg]
    exact fun hh => hik (hinj (Prod.ext hh.1 (Prod.ext hh.2.1 hh.2.2)))
  · intro i
    refine ⟨(hm i).aemeasurable, ?_⟩
    have e := (hm i).map_eq_gaussianReal
    have hv : Var[fun ω => (w ω).wt_coefs.number (c i).1 (c i).2.1 (c i).2.2; μ] =
        v * (2:ℝ) ^ (2 * ((c i).1 : ℝ) * (1 / 2 - 1 / nm + g)) := by
      rw [variance_eq_sub (hm i).memLp_two]
      have h2 := (hcov i i).2.2.2
      rw [if_pos ⟨rfl, rfl, rfl⟩] at h2
      simp only [Pi.pow_apply, sq]
      rw [(hcov i i).2.1, mul_zero, sub_zero, h2]
    simp only at e
    rw [(hcov i i).2.1, hv] at e
    exact e

/-- A position in the interior, of a scale that was computed, is reported. -/
theorem interior_reported (hwt : wt.Valid) {y : Fin R → ℤ → ℝ} {w : WT R}
    (h : waveletAnalysis (sampled N y) p wt j1 j2 g nm weighted = .ok w) {j k : ℕ} (hj : 1 ≤ j) (hjl : j ≤ w.wt_coefs.values.length)
    (hk : k ∈ interior N wt.dec_hi.length j) (r : Fin R) : w.wt_coefs.Reported j k r := by
  rw [interior_eq _ _ _ hwt.pos, Finset.mem_filter, mem_range] at hk
  obtain ⟨ml, K, Kc, h1, -, -, hKc', -, hc, -⟩ := wa_inv h
  rw [sampled_length] at h1
  have hlen : w.wt_coefs.values.length = Kc := by rw [hc]; simp [scalesUpTo]
  rw [hlen] at hjl
  refine ⟨(2:ℝ) ^ ((j : ℝ) * (1 / 2 - 1 / nm + g)) * idealDetail wt (y r) j k, ?_⟩
  rw [hc, scalesUpTo_val, coefSeq_length _ _ _ hj, sampled_length, if_pos ⟨hj, hjl, hk.1⟩,
    coef_ent wt hwt g nm y r hj (fun i hi => by have := level_room h1 (i := i) (by omega); omega) hk.1, scaleFactor_eq]
  congr 1
  exact if_neg hk.2

/-- **C88**, wavelet PSD of white noise: with orthonormal wavelets, the expectation of the PSD that `wavelet_estimation` returns for a
white noise of variance `v` is `v` at every frequency: the estimate of a flat spectrum is flat and unbiased. -/
theorem C88_psd {v : ℝ} (hx : HasCovariance μ N x fun n m => if n = m then v else 0) {pywt : WaveletLookup} {fs : ℝ} {n : ℕ}
    (hdb : pywt ("db" ++ toString n) = .ok wt) (hwt : wt.Valid) (ho : OrthonormalBank wt) {s : Ω → PSD R}
    (hs : ∀ ω, waveletEstimation pywt (asFloats (x ω)) fs n j2 = .ok (s ω)) {ω₀ : Ω} {i : ℕ} (hi : i < (s ω₀).psd.length)
    (r : Fin R) :
    ∃ S : Ω → ℝ, (∀ ω, ∃ row, (s ω).psd[i]? = some row ∧ row r = Fl.fin (S ω)) ∧ Integrable S μ ∧ ∫ ω, S ω ∂μ = v := by
  have hR : R ≠ 0 := fun h0 => by subst h0; exact r.elim0
  have h0 : ∀ ω, waveletEstimation pywt (sampled N fun r t => ((x ω).getD t.toNat fun _ => 0) r) fs n j2 = .ok (s ω) :=
    fun ω => by rw [← asFloats_sampled (hx.length ω)]; exact hs ω
  have hwe : ∀ ω, ∃ w, waveletAnalysis (sampled N fun r t => ((x ω).getD t.toNat fun _ => 0) r) .none wt 1 j2 (1 / 2) 1 false = .ok w ∧
      (s ω).psd.length = w.wt_coefs.values.length := by
    intro ω
    obtain ⟨wt', w, hp, hw, hpsd, -⟩ := we_inv (h0 ω)
    rw [hdb] at hp; cases hp
    exact ⟨w, hw, by rw [hpsd, List.length_map]⟩
  choose w hw hlen using hwe
  have hw' : ∀ ω, waveletAnalysis (asFloats (x ω)) .none wt 1 j2 (1 / 2) 1 false = .ok (w ω) := fun ω => by
    rw [asFloats_sampled (hx.length ω)]; exact hw ω
  have hlen' : ∀ ω, (s ω).psd.length = (s ω₀).psd.length := by
    intro ω
    rw [hlen, hlen]
    have := (C07_data_independent hR hR hwt hwt rfl (hw ω) (hw ω₀)).2.2.1
    have h2 := congrArg List.length this
    simpa [Dict.keys] using h2
  have hval := fun ω => C55_value hR hdb hwt (h0 ω) (j := i + 1) (by omega) (by have := hlen' ω; omega)
  have hrep : ∀ k ∈ interior N wt.dec_hi.length (i + 1), (w ω₀).wt_coefs.Reported (i + 1) k r := fun k hk =>
    interior_reported hwt (hw ω₀) (by omega) (by rw [← hlen]; omega) hk r
  have hnum : ∀ k ∈ interior N wt.dec_hi.length (i + 1), ∀ ω,
      idealDetail wt (fun t => ((x ω).getD t.toNat fun _ => 0) r) ((i + 1 : ℕ)) k = (w ω).wt_coefs.number (i + 1) k r := by
    intro k hk ω
    have h1 := (reported_linear hwt (hw ω) ((random_linear hwt hx.length hw' (hrep k hk)).2.1 ω r)).2.1
    rw [h1, show (1 / 2 - 1 / 1 + 1 / 2 : ℝ) = 0 by norm_num, mul_zero, Real.rpow_zero, one_mul]
  refine ⟨fun ω => (∑ k ∈ interior N wt.dec_hi.length (i + 1),
    (w ω).wt_coefs.number (i + 1) k r * (w ω).wt_coefs.number (i + 1) k r) / (interior N wt.dec_hi.length (i + 1)).card, ?_, ?_, ?_⟩
  · intro ω
    obtain ⟨-, row, h1, h2⟩ := hval ω
    refine ⟨row, h1, ?_⟩
    rw [h2]
    congr 2
    exact sum_congr rfl fun k hk => by rw [hnum k hk ω, sq]
  · exact (integrable_finsetSum _ fun k hk => (C88_white_noise hwt ho hx hw' (hrep k hk) (hrep k hk)).2.2.1).div_const _
  · rw [integral_div, integral_finsetSum _ fun k hk => (C88_white_noise hwt ho hx hw' (hrep k hk) (hrep k hk)).2.2.1]
    have : ∀ k ∈ interior N wt.dec_hi.length (i + 1),
        ∫ ω, (w ω).wt_coefs.number (i + 1) k r * (w ω).wt_coefs.number (i + 1) k r ∂μ = v := by
      intro k hk
      rw [(C88_white_noise hwt ho hx hw' (hrep k hk) (hrep k hk)).2.2.2, if_pos ⟨rfl, rfl, rfl⟩]
      norm_num
    rw [sum_congr rfl this, sum_const, nsmul_eq_mul]
    have h3 := (hval ω₀).1
    rw [mul_comm, mul_div_assoc, div_self, mul_one]
    exact_mod_cast (by omega : (interior N wt.dec_hi.length (i + 1)).card ≠ 0)

/-! ### C89 -/

/-- The covariance of the coefficients in terms of the ideal filter bank. -/
theorem double_sum {G : ℤ → ℝ} (hwt : wt.Valid) (hl : ∀ ω, (x ω).length = N)
    (hw : ∀ ω, waveletAnalysis (asFloats (x ω)) p wt j1 j2 g nm weighted = .ok (w ω)) {ω₀ ω₁ : Ω} {j k j' k' : ℕ} {r₀ r₁ : Fin R}
    (hr : (w ω₀).wt_coefs.Reported j k r₀) (hr' : (w ω₁).wt_coefs.Reported j' k' r₁) :
    ∑ s ∈ range N, ∑ t ∈ range N, weight wt j k s * weight wt j' k' t * G ((s : ℤ) - t) =
      idealDetail wt (fun s => idealDetail wt (fun t => G (s - t)) j' k') j k := by
  obtain ⟨-, -, -, h1⟩ := random_linear hwt hl hw hr
  obtain ⟨-, -, -, h2⟩ := random_linear hwt hl hw hr'
  rw [h1]
  refine sum_congr rfl fun s _ => ?_
  rw [h2, mul_sum]
  exact sum_congr rfl fun t _ => by ring

theorem weight_sum {M : ℕ} (hM : VanishingMoments wt.dec_hi M) (hM1 : 1 ≤ M) (hwt : wt.Valid) (hl : ∀ ω, (x ω).length = N)
    (hw : ∀ ω, waveletAnalysis (asFloats (x ω)) p wt j1 j2 g nm weighted = .ok (w ω)) {ω₀ : Ω} {j k : ℕ} {r₀ : Fin R}
    (hr : (w ω₀).wt_coefs.Reported j k r₀) : ∑ t ∈ range N, weight wt j k t = 0 := by
  obtain ⟨-, -, -, h1⟩ := random_linear hwt hl hw hr
  have := h1 fun t => (Polynomial.C (1:ℝ)).eval (t : ℝ)
  rw [idealDetail_vanish wt hM _ (by rw [Polynomial.natDegree_C]; omega)] at this
  simp only [Polynomial.eval_C, mul_one] at this
  exact this.symm

/-- **C89**, covariance: for a signal with stationary increments (covariance `A n + A m - G (n - m)`) and a wavelet with at least one
vanishing moment, the part `A` disappears: the covariance of two coefficients is minus the detail (in `s`) of the detail (in `t`)
of `G (s - t)`. -/
theorem C89_covariance {Γ : ℕ → ℕ → ℝ} {A : ℕ → ℝ} {G : ℤ → ℝ} (hΓ : ∀ n m : ℕ, Γ n m = A n + A m - G ((n : ℤ) - m)) {M : ℕ}
    (hM : VanishingMoments wt.dec_hi M) (hM1 : 1 ≤ M) (hwt : wt.Valid) (hx : HasCovariance μ N x Γ)
    (hw : ∀ ω, waveletAnalysis (asFloats (x ω)) p wt j1 j2 g nm weighted = .ok (w ω)) {ω₀ ω₁ : Ω} {j k j' k' : ℕ} {r₀ r₁ : Fin R}
    (hr : (w ω₀).wt_coefs.Reported j k r₀) (hr' : (w ω₁).wt_coefs.Reported j' k' r₁) (r : Fin R) :
    ∫ ω, (w ω).wt_coefs.number j k r * (w ω).wt_coefs.number j' k' r ∂μ =
      - ((2:ℝ) ^ ((j : ℝ) * (1 / 2 - 1 / nm + g)) * (2:ℝ) ^ ((j' : ℝ) * (1 / 2 - 1 / nm + g)) *
        idealDetail wt (fun s => idealDetail wt (fun t => G (s - t)) j' k') j k) := by
  rw [(C88_covariance hwt hx hw hr hr' r r).2.2.2, if_pos rfl, ← mul_neg, ← double_sum hwt hx.length hw hr hr', ← sum_neg_distrib]
  congr 1
  have e : ∀ s ∈ range N, ∑ t ∈ range N, weight wt j k s * weight wt j' k' t * Γ s t =
      weight wt j k s * A s * ∑ t ∈ range N, weight wt j' k' t + weight wt j k s * ∑ t ∈ range N, weight wt j' k' t * A t -
      ∑ t ∈ range N, weight wt j k s * weight wt j' k' t * G ((s : ℤ) - t) := by
    intro s _
    rw [mul_sum, mul_sum, ← sum_add_distrib, ← sum_sub_distrib]
    exact sum_congr rfl fun t _ => by rw [hΓ]; ring
  rw [sum_congr rfl e, weight_sum hM hM1 hwt hx.length hw hr', sum_sub_distrib, sum_add_distrib, ← sum_mul, ← sum_mul,
    weight_sum hM hM1 hwt hx.length hw hr, sum_neg_distrib]
  simp

/-- Translating both arguments of `G (s - t)` changes nothing. -/
theorem double_shift (wt : Wavelet) (G : ℤ → ℝ) {j j' J : ℕ} (hj : 1 ≤ j) (hj' : 1 ≤ j') (hJ : j ≤ J) (hJ' : j' ≤ J) (m k k' : ℤ) :
    idealDetail wt (fun s => idealDetail wt (fun t => G (s - t)) j' (k' + m * 2 ^ (J - j'))) j (k + m * 2 ^ (J - j)) =
      idealDetail wt (fun s => idealDetail wt (fun t => G (s - t)) j' k') j k := by
  have e : ∀ i ≤ J, m * 2 ^ (J - i) * 2 ^ i = m * 2 ^ J := fun i hi => by
    rw [mul_assoc, ← pow_add, Nat.sub_add_cancel hi]
  rw [← idealDetail_shift wt _ hj, e j hJ]
  congr 1
  funext s
  rw [← idealDetail_shift wt _ hj', e j' hJ']
  congr 1
  funext t
  congr 1
  ring

/-- **C89**, stationarity in the wide sense: translating two positions by the same amount of time (a multiple of the coarser scale)
does not change the covariance of the coefficients. -/
theorem C89_covariance_stationary {Γ : ℕ → ℕ → ℝ} (hΓ : StationaryIncrements Γ) {M : ℕ} (hM : VanishingMoments wt.dec_hi M) (hM1 : 1 ≤ M)
    (hwt : wt.Valid) (hx : HasCovariance μ N x Γ)
    (hw : ∀ ω, waveletAnalysis (asFloats (x ω)) p wt j1 j2 g nm weighted = .ok (w ω)) {ω₀ : Ω} {J j k j' k' m : ℕ} {r₀ : Fin R}
    (hJ : j ≤ J) (hJ' : j' ≤ J) (hr : (w ω₀).wt_coefs.Reported j k r₀) (hr' : (w ω₀).wt_coefs.Reported j' k' r₀)
    (hs : (w ω₀).wt_coefs.Reported j (k + m * 2 ^ (J - j)) r₀) (hs' : (w ω₀).wt_coefs.Reported j' (k' + m * 2 ^ (J - j')) r₀)
    (r r' : Fin R) :
    ∫ ω, (w ω).wt_coefs.number j (k + m * 2 ^ (J - j)) r * (w ω).wt_coefs.number j' (k' + m * 2 ^ (J - j')) r' ∂μ =
      ∫ ω, (w ω).wt_coefs.number j k r * (w ω).wt_coefs.number j' k' r' ∂μ := by
  obtain ⟨A, G, hΓ⟩ := hΓ
  by_cases h : r = r'
  · subst h
    rw [C89_covariance hΓ hM hM1 hwt hx hw hs hs', C89_covariance hΓ hM hM1 hwt hx hw hr hr']
    have := double_shift wt G (random_linear hwt hx.length hw hr).1 (random_linear hwt hx.length hw hr').1 hJ hJ' m k k'
    push_cast
    rw [this]
  · rw [(C88_covariance hwt hx hw hs hs' r r').2.2.2, (C88_covariance hwt hx hw hr hr' r r').2.2.2, if_neg h, if_neg h]

/-- **C89**, stationarity: if the signal is moreover Gaussian, translating any finite family of positions (of scales up to `J`) by the
same multiple of `2^J` samples does not change the joint law of the coefficients. -/
theorem C89_law_stationary {Γ : ℕ → ℕ → ℝ} (hΓ : StationaryIncrements Γ) {M : ℕ} (hM : VanishingMoments wt.dec_hi M) (hM1 : 1 ≤ M)
    (hwt : wt.Valid) (hx : GaussianArray μ N x Γ)
    (hw : ∀ ω, waveletAnalysis (asFloats (x ω)) p wt j1 j2 g nm weighted = .ok (w ω)) {ω₀ : Ω} {κ : Type*} [Finite κ] {J m : ℕ}
    (c : κ → ℕ × ℕ × Fin R) (hJ : ∀ i, (c i).1 ≤ J) (hr : ∀ i, (w ω₀).wt_coefs.Reported (c i).1 (c i).2.1 (c i).2.2)
    (hs : ∀ i, (w ω₀).wt_coefs.Reported (c i).1 ((c i).2.1 + m * 2 ^ (J - (c i).1)) (c i).2.2) :
    μ.map (fun ω i => (w ω).wt_coefs.number (c i).1 ((c i).2.1 + m * 2 ^ (J - (c i).1)) (c i).2.2) =
      μ.map (fun ω i => (w ω).wt_coefs.number (c i).1 (c i).2.1 (c i).2.2) := by
  refine law_eq_of_cov (coefs_gaussian hwt hx hw (fun i => ((c i).1, (c i).2.1 + m * 2 ^ (J - (c i).1), (c i).2.2)) hs)
    (coefs_gaussian hwt hx hw c hr) ?_ ?_ ?_
  · exact fun i => (C88_covariance hwt hx.toHasCovariance hw (hs i) (hs i) (c i).2.2 (c i).2.2).2.1
  · exact fun i => (C88_covariance hwt hx.toHasCovariance hw (hr i) (hr i) (c i).2.2 (c i).2.2).2.1
  · intro i i'
    have hrep : ∀ {j k : ℕ} {r : Fin R}, (w ω₀).wt_coefs.Reported j k r → (w ω₀).wt_coefs.Reported j k (c i).2.2 :=
      fun h => (C88_pattern hwt hx.length hw ω₀ ω₀ _ _ _ _).1 h
    exact C89_covariance_stationary hΓ hM hM1 hwt hx.toHasCovariance hw (hJ i) (hJ i') (hr i) (hrep (hr i')) (hs i) (hrep (hs i')) _ _

/-- The covariance of the samples of fractional Brownian motion is of this kind. -/
theorem fbm_stationaryIncrements (H sigma d : ℝ) :
    StationaryIncrements fun n m => fbmCovariance H sigma ((n + 1 : ℕ) * d) ((m + 1 : ℕ) * d) := by
  refine ⟨fun n => sigma ^ 2 / 2 * |((n + 1 : ℕ) : ℝ) * d| ^ (2 * H), fun i => sigma ^ 2 / 2 * |(i : ℝ) * d| ^ (2 * H), fun n m => ?_⟩
  simp only [fbmCovariance]
  have : ((m + 1 : ℕ) : ℝ) * d - ((n + 1 : ℕ) : ℝ) * d = -((((n : ℤ) - m : ℤ) : ℝ) * d) := by push_cast; ring
  rw [this, abs_neg]
  ring

/-- **C89** for the simulator: `fbm` followed by `wavelet_analysis` with any wavelet with a vanishing moment: the signal is not
stationary but the joint law of its coefficients is invariant under translation of the positions. -/
theorem C89_fbm {H sigma : ℝ} {dt : Option ℝ} {gen : Ω → ℕ → ℝ} (z0 : Option (CArr R)) (h0 : 0 < H) (h1 : H ≤ 1) (hN : 2 ≤ N)
    (hdt : ∀ d, dt = some d → 0 ≤ d) (hR : R ≠ 0) (hg : StdNormal μ gen) {M : ℕ} (hM : VanishingMoments wt.dec_hi M) (hM1 : 1 ≤ M)
    (hwt : wt.Valid) :
    ∃ x : Ω → RArr R, Returns (fbm R N H sigma dt "cme" z0) gen x ∧
      ∀ w : Ω → WT R, (∀ ω, waveletAnalysis (asFloats (x ω)) p wt j1 j2 g nm weighted = .ok (w ω)) →
      ∀ (ω₀ : Ω) (n J m : ℕ) (c : Fin n → ℕ × ℕ × Fin R), (∀ i, (c i).1 ≤ J) →
      (∀ i, (w ω₀).wt_coefs.Reported (c i).1 (c i).2.1 (c i).2.2) →
      (∀ i, (w ω₀).wt_coefs.Reported (c i).1 ((c i).2.1 + m * 2 ^ (J - (c i).1)) (c i).2.2) →
      μ.map (fun ω i => (w ω).wt_coefs.number (c i).1 ((c i).2.1 + m * 2 ^ (J - (c i).1)) (c i).2.2) =
        μ.map (fun ω i => (w ω).wt_coefs.number (c i).1 (c i).2.1 (c i).2.2) := by
  obtain ⟨x, hx, hG, -⟩ := C85_fbm (R := R) (sigma := sigma) z0 h0 h1 hN hdt hR hg
  exact ⟨x, hx, fun w hw ω₀ n J m c hJ hr hs =>
    C89_law_stationary (fbm_stationaryIncrements _ _ _) hM hM1 hwt hG hw c hJ hr hs⟩

/-! ### The hypotheses are met -/

/-- The Daubechies filters of length 4 (`db2` in pywt, up to rounding). -/
def db2 : Wavelet :=
  { dec_lo := [(1 - √3) / (4 * √2), (3 - √3) / (4 * √2), (3 + √3) / (4 * √2), (1 + √3) / (4 * √2)]
    dec_hi := [-((1 + √3) / (4 * √2)), (3 + √3) / (4 * √2), -((3 - √3) / (4 * √2)), (1 - √3) / (4 * √2)] }

theorem evenCorrelation_four (a b c d a' b' c' d' : ℝ) (n : ℤ) : evenCorrelation [a, b, c, d] [a', b', c', d'] n =
    if n = 0 then a * a' + b * b' + c * c' + d * d' else if n = 1 then c * a' + d * b' else if n = -1 then a * c' + b * d' else 0 := by
  simp only [evenCorrelation, List.length_cons, List.length_nil, zero_add, Nat.reduceAdd, sum_range_succ, sum_range_zero]
  by_cases h0 : n = 0
  · subst h0; norm_num
  by_cases h1 : n = 1
  · subst h1; norm_num
  by_cases h2 : n = -1
  · subst h2; norm_num
  rw [if_neg h0, if_neg h1, if_neg h2]
  have h : ∀ (m m' : ℕ), m < 4 → m' < 4 → ¬ ((m : ℤ) - m' = 2 * n) := by omega
  rw [if_neg (h 0 0 (by norm_num) (by norm_num)), if_neg (h 0 1 (by norm_num) (by norm_num)), if_neg (h 0 2 (by norm_num) (by norm_num)),
    if_neg (h 0 3 (by norm_num) (by norm_num)), if_neg (h 1 0 (by norm_num) (by norm_num)), if_neg (h 1 1 (by norm_num) (by norm_num)),
    if_neg (h 1 2 (by norm_num) (by norm_num)), if_neg (h 1 3 (by norm_num) (by norm_num)), if_neg (h 2 0 (by norm_num) (by norm_num)),
    if_neg (h 2 1 (by norm_num) (by norm_num)), if_neg (h 2 2 (by norm_num) (by norm_num)), if_neg (h 2 3 (by norm_num) (by norm_num)),
    if_neg (h 3 0 (by norm_num) (by norm_num)), if_neg (h 3 1 (by norm_num) (by norm_num)), if_neg (h 3 2 (by norm_num) (by norm_num)),
    if_neg (h 3 3 (by norm_num) (by norm_num))]
  norm_num

/-- `db2` satisfies all the hypotheses on wavelets: an orthonormal bank with two vanishing moments. -/
theorem db2_orthonormal : db2.Valid ∧ OrthonormalBank db2 ∧ VanishingMoments db2.dec_hi 2 := by
  have h2 : √(2:ℝ) ≠ 0 := by positivity
  have s2 : √(2:ℝ) ^ 2 = 2 := Real.sq_sqrt (by norm_num)
  have s3 : √(3:ℝ) ^ 2 = 3 := Real.sq_sqrt (by norm_num)
  refine ⟨⟨rfl, by simp [db2]⟩, ⟨?_, ?_, ?_⟩, ?_⟩
  · intro n
    rw [db2, evenCorrelation_four]
    split
    · field_simp; rw [s2]; ring_nf; rw [s3]; norm_num
    split
    · field_simp; ring_nf; rw [s3]; norm_num
    split
    · field_simp; ring_nf; rw [s3]; norm_num
    rfl
  · intro n
    rw [db2, evenCorrelation_four]
    split
    · field_simp; rw [s2]; ring_nf; rw [s3]; norm_num
    split
    · field_simp; ring_nf; rw [s3]; norm_num
    split
    · field_simp; ring_nf; rw [s3]; norm_num
    rfl
  · intro n
    rw [db2, evenCorrelation_four]
    split
    · field_simp; ring_nf
    split
    · field_simp; ring_nf
    split
    · field_simp; ring_nf
    rfl
  · intro i hi
    interval_cases i
    · simp [db2, sum_range_succ]; field_simp; ring_nf
    · simp [db2, sum_range_succ]; field_simp; ring_nf

/-- C88 and C89 on a concrete call: two realisations of 64 samples of `fgn` with `H = 1/2`, analysed with `db2`: the coefficients 3, 4
of scale 1 and 2 of scale 2 are reported, and the first two are independent of each other. -/
example : ∃ (Ω : Type) (_ : MeasurableSpace Ω) (μ : Measure Ω) (gen : Ω → ℕ → ℝ) (x : Ω → RArr 2) (w : Ω → WT 2), StdNormal μ gen ∧
    Returns (fgn 2 64 (1 / 2) 1 (some 1) "cme" none) gen x ∧
    (∀ ω, waveletAnalysis (asFloats (x ω)) .inf db2 1 none 0 1 false = .ok (w ω)) ∧
    (∀ ω, (w ω).wt_coefs.Reported 1 3 0 ∧ (w ω).wt_coefs.Reported 1 4 0 ∧ (w ω).wt_coefs.Reported 2 2 0) ∧
    IndepFun (fun ω => (w ω).wt_coefs.number 1 3 0) (fun ω => (w ω).wt_coefs.number 1 4 0) μ := by
  obtain ⟨hv, ho, -⟩ := db2_orthonormal
  obtain ⟨Ω, m, μ, gen, h⟩ := exists_stdNormal
  obtain ⟨x, hx, hc⟩ := C72_brownian (R := 2) (sigma := 1) (N := 64) (dt := some 1) none (by norm_num)
    (by intro d hd; cases hd; norm_num) (by norm_num) h.whiteNoise
  have hG : GaussianArray μ 64 x _ := ⟨hc, (linSim_fgn (R := 2) (sigma := 1) (N := 64) (dt := some 1) none
    (by norm_num : (0:ℝ) ≤ 1 / 2) (by norm_num) (by norm_num) (by intro d hd; cases hd; norm_num)).gaussian h hx
      fun p : Fin 64 × Fin 2 => (p.1, p.2)⟩
  have hw : ∀ ω, ∃ w, waveletAnalysis (asFloats (x ω)) .inf db2 1 none 0 1 false = .ok w := fun ω =>
    C05_total _ .inf (Or.inr rfl) db2 1 none 0 1 false (by norm_num)
      (by intro h0; have := congrArg List.length h0; simp [asFloats, hc.length ω] at this) (by norm_num)
  choose w hw using hw
  have hlev : decompositionLevel 64 db2 = .ok ((3 : ℕ) : ℤ) := (C01_integer 64 3 _ (by norm_num)).mpr (by simp [db2])
  have hrep : ∀ ω, (w ω).wt_coefs.Reported 1 3 0 ∧ (w ω).wt_coefs.Reported 1 4 0 ∧ (w ω).wt_coefs.Reported 2 2 0 := by
    intro ω
    have h0 := hw ω
    rw [asFloats_sampled (hc.length ω)] at h0
    have hlen : (w ω).wt_coefs.values.length = 3 := by
      obtain ⟨w0, hw0⟩ := C05_total (sampled 64 fun r t => ((x ω).getD t.toNat fun _ => 0) r) .none (Or.inl rfl) db2 1 none 0 1 false
        (by norm_num) (by simp [sampled]) (by norm_num)
      obtain ⟨l, -, -, he, -⟩ := C09_leader_scales (by norm_num) hv (by simp [db2]) h0 hw0
      rw [he, C09_scales (by norm_num) hv hw0 (by norm_num) hlev, if_pos (by simp [db2])]
    refine ⟨interior_reported hv h0 (by norm_num) (by omega) ?_ 0, interior_reported hv h0 (by norm_num) (by omega) ?_ 0,
      interior_reported hv h0 (by norm_num) (by omega) ?_ 0⟩ <;> simp [interior, db2]
  have hp := h.isProbabilityMeasure
  obtain ⟨ω₀⟩ : Nonempty Ω := by
    by_contra hne
    rw [not_nonempty_iff] at hne
    have := measure_univ (μ := μ)
    rw [Set.univ_eq_empty_iff.2 hne, measure_empty] at this
    exact zero_ne_one this
  refine ⟨Ω, m, μ, gen, x, w, h, hx, hw, hrep, ?_⟩
  obtain ⟨hi, -⟩ := C88_gaussian hv ho hG hw (ω₀ := ω₀) (κ := Fin 2) ![(1, 3, 0), (1, 4, 0)]
    (by intro a b; fin_cases a <;> fin_cases b <;> simp) (by intro i; fin_cases i; exacts [(hrep ω₀).1, (hrep ω₀).2.1])
  exact hi.indepFun (i := 0) (j := 1) (by norm_num)

end

end MFA
