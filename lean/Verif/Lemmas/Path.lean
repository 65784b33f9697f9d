import Verif.Lemmas.Gaussian
import Verif.Spec.Recording
import Mathlib.Analysis.InnerProductSpace.Reproducing
import Mathlib.Analysis.InnerProductSpace.GramSchmidtOrtho

/-! A Gaussian recording that goes on for ever exists, for every covariance that every finite array can have (Moore-Aronszajn and Gram-Schmidt). -/

namespace MFA

open Classical Finset MeasureTheory ProbabilityTheory InnerProductSpace

noncomputable section

/-- The positive semidefinite functions. -/
def KernelPSD (Γ : ℕ → ℕ → ℝ) : Prop := (∀ n m, Γ n m = Γ m n) ∧ ∀ a : ℕ →₀ ℝ, 0 ≤ a.sum fun n c => a.sum fun m d => c * d * Γ n m

/-- Covariances are positive semidefinite. -/
theorem kernelPSD_of_cov {Γ : ℕ → ℕ → ℝ} (h : ∀ K, ∃ N, K ≤ N ∧ ∃ (Ω : Type) (_ : MeasurableSpace Ω) (μ : Measure Ω) (x : Ω → List (Fin 1 → ℝ)),
    HasCovariance μ N x Γ) : KernelPSD Γ := by
  constructor
  · intro n m
    obtain ⟨N, hN, Ω, _, μ, x, hx⟩ := h (max n m + 1)
    have h1 := hx.cov n (by omega) m (by omega) 0 0
    have h2 := hx.cov m (by omega) n (by omega) 0 0
    rw [if_pos rfl] at h1 h2
    rw [← h1, ← h2]
    exact integral_congr_ae (Filter.Eventually.of_forall fun ω => mul_comm _ _)
  · intro a
    obtain ⟨N, hN, Ω, _, μ, x, hx⟩ := h (a.support.sup id + 1)
    have hlt : ∀ n ∈ a.support, n < N := fun n hn => by
      have : n ≤ a.support.sup id := le_sup (f := id) hn
      omega
    have e : (a.sum fun n c => a.sum fun m d => c * d * Γ n m) = ∫ ω, (∑ n ∈ a.support, a n * ((x ω).getD n fun _ => 0) 0) ^ 2 ∂μ := by
      simp only [Finsupp.sum, sq, sum_mul_sum]
      rw [integral_finsetSum]
      · refine sum_congr rfl fun n hn => ?_
        rw [integral_finsetSum]
        · refine sum_congr rfl fun m hm => ?_
          have := hx.cov n (hlt n hn) m (hlt m hm) 0 0
          rw [if_pos rfl] at this
          rw [← this, ← integral_const_mul]
          exact integral_congr_ae (Filter.Eventually.of_forall fun ω => by ring)
        · intro m hm
          exact ((hx.integrable n (hlt n hn) m (hlt m hm) 0 0).const_mul (a n * a m)).congr (Filter.Eventually.of_forall fun ω => by ring)
      · intro n hn
        refine integrable_finsetSum _ fun m hm => ?_
        exact ((hx.integrable n (hlt n hn) m (hlt m hm) 0 0).const_mul (a n * a m)).congr (Filter.Eventually.of_forall fun ω => by ring)
    rw [e]
    exact integral_nonneg fun ω => sq_nonneg _

/-- A positive semidefinite function is the Gram matrix of a sequence of vectors of a Hilbert space. -/
theorem KernelPSD.vectors {Γ : ℕ → ℕ → ℝ} (h : KernelPSD Γ) : ∃ (E : Type) (_ : NormedAddCommGroup E) (_ : InnerProductSpace ℝ E) (v : ℕ → E),
    ∀ n m, inner ℝ (v n) (v m) = Γ n m := by
  let K : Matrix ℕ ℕ (ℝ →L[ℝ] ℝ) := Matrix.of fun n m => Γ n m • ContinuousLinearMap.id ℝ ℝ
  have hH : K.IsHermitian := by
    ext n m
    simp only [Matrix.conjTranspose_apply, K, Matrix.of_apply]
    rw [h.1 m n, star_smul]
    have : (ContinuousLinearMap.adjoint (ContinuousLinearMap.id ℝ ℝ)) = ContinuousLinearMap.id ℝ ℝ := ContinuousLinearMap.adjoint_id
    simp [ContinuousLinearMap.star_eq_adjoint, this]
  have hK : K.PosSemidef := by
    have ht := RKHS.posSemidef_tfae (K := K)
    have h3 : K.IsHermitian ∧ ∀ vv : ℕ →₀ ℝ, 0 ≤ RCLike.re (vv.sum fun x w => vv.sum fun x' w' => inner ℝ (K x' x w) w') := by
      refine ⟨hH, fun a => (h.2 a).trans (le_of_eq ?_)⟩
      simp only [Finsupp.sum, K, Matrix.of_apply, RCLike.re_to_real]
      refine sum_congr rfl fun n _ => sum_congr rfl fun m _ => ?_
      rw [h.1 n m]
      simp; ring
    exact (ht.out 0 2).2 h3
  have : Fact K.PosSemidef := ⟨hK⟩
  refine ⟨RKHS.OfKernel K, inferInstance, inferInstance, fun n => RKHS.kerFun (RKHS.OfKernel K) n (1:ℝ), fun n m => ?_⟩
  rw [RKHS.kerFun_inner, RKHS.kerFun_apply, RKHS.OfKernel.kernel_ofKernel]
  simp [K]

/-- An infinite Cholesky factor. -/
theorem KernelPSD.factor {Γ : ℕ → ℕ → ℝ} (h : KernelPSD Γ) : ∃ B : ℕ → ℕ → ℝ, (∀ n i, n < i → B n i = 0) ∧
    ∀ K n m, n < K → m < K → ∑ i ∈ range K, B n i * B m i = Γ n m := by
  obtain ⟨E, _, _, v, hv⟩ := h.vectors
  obtain ⟨u, hu⟩ : ∃ u, u = gramSchmidt ℝ v := ⟨_, rfl⟩
  let b : ℕ → ℕ → ℝ := fun n i => if i = n then 1 else if i < n then inner ℝ (u i) (v n) / ‖u i‖ ^ 2 else 0
  have hb : ∀ K n, n < K → v n = ∑ i ∈ range K, b n i • u i := by
    intro K n hn
    have h1 := gramSchmidt_def'' ℝ v n
    rw [← hu] at h1
    have h2 : ∑ i ∈ range K, b n i • u i = ∑ i ∈ range (n + 1), b n i • u i := by
      refine (sum_subset (range_mono (by omega)) fun i _ hi => ?_).symm
      simp only [mem_range, not_lt] at hi
      rw [show b n i = 0 by simp only [b]; rw [if_neg (by omega), if_neg (by omega)], zero_smul]
    rw [h2, sum_range_succ, h1, add_comm]
    congr 1
    · refine (sum_congr (by ext i; simp) fun i hi => ?_)
      have hi' : i < n := by simpa using hi
      simp only [b]
      rw [if_neg (by omega), if_pos hi']
      rfl
    · simp [b]
  refine ⟨fun n i => ‖u i‖ * b n i, fun n i hi => ?_, fun K n m hn hm => ?_⟩
  · show ‖u i‖ * b n i = 0
    rw [show b n i = 0 by simp only [b]; rw [if_neg (by omega), if_neg (by omega)], mul_zero]
  · rw [← hv n m, hb K n hn, hb K m hm, sum_inner]
    refine sum_congr rfl fun i hi => ?_
    rw [inner_sum, sum_eq_single i]
    · rw [real_inner_smul_left, real_inner_smul_right, real_inner_self_eq_norm_sq]; ring
    · intro k _ hk
      rw [real_inner_smul_left, real_inner_smul_right, hu, gramSchmidt_orthogonal ℝ v (Ne.symm hk)]; ring
    · intro hn; exact absurd hi hn

/-- **Existence**: for every covariance there is a Gaussian recording that goes on for ever, with independent realisations. -/
theorem KernelPSD.recording {Γ : ℕ → ℕ → ℝ} (h : KernelPSD Γ) (R : ℕ) : ∃ (Ω : Type) (_ : MeasurableSpace Ω) (μ : Measure Ω)
    (x : Ω → ℕ → Fin R → ℝ), ∀ N, GaussianArray μ N (fun ω => firstSamples (x ω) N) Γ := by
  obtain ⟨B, hB0, hB⟩ := h.factor
  obtain ⟨Ω, m, μ, g, hg⟩ := exists_stdNormal
  have hw := hg.whiteNoise
  refine ⟨Ω, m, μ, fun ω n r => ∑ i ∈ range (n + 1), B n i * g ω (i * R + r), fun N => ?_⟩
  have hget : ∀ ω, ∀ n < N, ∀ r : Fin R, ((firstSamples (fun n r => ∑ i ∈ range (n + 1), B n i * g ω (i * R + r)) N).getD n fun _ => 0) r =
      ∑ i ∈ range N, B n i * g ω (i * R + r) := by
    intro ω n hn r
    rw [show (firstSamples (fun n (r : Fin R) => ∑ i ∈ range (n + 1), B n i * g ω (i * R + r)) N).getD n (fun _ => 0) =
      fun r : Fin R => ∑ i ∈ range (n + 1), B n i * g ω (i * R + r) by
        unfold firstSamples
        rw [List.getD_eq_getElem?_getD, List.getElem?_map, List.getElem?_range hn]
        rfl]
    refine sum_subset (range_mono (by omega)) fun i _ hi => ?_
    simp only [mem_range, not_lt] at hi
    rw [hB0 n i (by omega), zero_mul]
  have hint : ∀ n m (r r' : Fin R) (i k : ℕ), Integrable (fun ω => B n i * g ω (i * R + r) * (B m k * g ω (k * R + r'))) μ := by
    intro n m r r' i k
    exact ((hw.integrable_mul (i * R + r) (k * R + r')).const_mul (B n i * B m k)).congr (Filter.Eventually.of_forall fun ω => by ring)
  refine ⟨⟨fun ω => by simp [firstSamples], ?_, ?_, ?_, ?_⟩, ?_⟩
  · intro n hn r
    simp only [hget _ n hn r]
    exact integrable_finsetSum _ fun i _ => (hw.integrable _).const_mul _
  · intro n hn r
    simp only [hget _ n hn r]
    rw [integral_finsetSum _ fun i _ => (hw.integrable _).const_mul _]
    exact sum_eq_zero fun i _ => by rw [integral_const_mul, hw.mean, mul_zero]
  · intro n hn m hm r r'
    simp only [hget _ n hn r, hget _ m hm r', sum_mul_sum]
    exact integrable_finsetSum _ fun i _ => integrable_finsetSum _ fun k _ => hint n m r r' i k
  · intro n hn m hm r r'
    simp only [hget _ n hn r, hget _ m hm r', sum_mul_sum]
    rw [integral_finsetSum _ fun i _ => integrable_finsetSum _ fun k _ => hint n m r r' i k]
    have e : ∀ i k, ∫ ω, B n i * g ω (i * R + r) * (B m k * g ω (k * R + r')) ∂μ = if i = k ∧ r = r' then B n i * B m k else 0 := by
      intro i k
      have e1 : (fun ω => B n i * g ω (i * R + r) * (B m k * g ω (k * R + r'))) = fun ω => B n i * B m k * (g ω (i * R + r) * g ω (k * R + r')) := by
        funext ω; ring
      rw [e1, integral_const_mul, hw.cov]
      have hiff : i * R + (r : ℕ) = k * R + r' ↔ i = k ∧ r = r' := by
        constructor
        · intro he
          have hRpos : 0 < R := by have := r.isLt; omega
          have h1 : (i * R + (r : ℕ)) / R = i := by rw [mul_comm, Nat.mul_add_div hRpos, Nat.div_eq_of_lt r.isLt, add_zero]
          have h2 : (k * R + (r' : ℕ)) / R = k := by rw [mul_comm, Nat.mul_add_div hRpos, Nat.div_eq_of_lt r'.isLt, add_zero]
          have h3 : i = k := by rw [← h1, ← h2, he]
          subst h3
          exact ⟨rfl, Fin.ext (by omega)⟩
        · rintro ⟨rfl, rfl⟩; rfl
      by_cases hc : i = k ∧ r = r'
      · rw [if_pos (hiff.2 hc), if_pos hc, mul_one]
      · rw [if_neg (fun h => hc (hiff.1 h)), if_neg hc, mul_zero]
    have e2 : ∀ i ∈ range N, ∫ ω, ∑ k ∈ range N, B n i * g ω (i * R + r) * (B m k * g ω (k * R + r')) ∂μ = if r = r' then B n i * B m i else 0 := by
      intro i hi
      rw [integral_finsetSum _ fun k _ => hint n m r r' i k]
      simp only [e]
      by_cases hr : r = r'
      · simp only [hr, and_true, if_true]
        rw [sum_ite_eq, if_pos hi]
      · simp [hr]
    rw [sum_congr rfl e2]
    by_cases hr : r = r'
    · simp only [hr, if_true]; exact hB N n m hn hm
    · simp [hr]
  · have := hg.gaussian (κ := Fin N × Fin R) (fun p g => ∑ i ∈ range N, B p.1 i * g (i * R + p.2)) (fun p =>
      Lin.sum _ _ fun i _ => Lin.const_mul _ (Lin.eval _))
    convert this using 3 with ω p
    exact hget ω p.1 p.1.isLt p.2

end

end MFA
