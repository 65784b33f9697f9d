import Verif.Spec.Gaussian
import Verif.Lemmas.Noise
import Mathlib.Probability.Distributions.Gaussian.CharFun

/-!
# Gaussian arrays: linear functionals of standard normal draws, laws determined by covariances
-/

namespace MFA

open MeasureTheory ProbabilityTheory Finset

noncomputable section

variable {Ω Ω' : Type*} [MeasurableSpace Ω] [MeasurableSpace Ω'] {μ : Measure Ω} {ν : Measure Ω'} {g : Ω → ℕ → ℝ}

/-- Linear functionals of the entries of a stream at finitely many positions in `S`. -/
def LinOn (S : Set ℕ) : Submodule ℝ ((ℕ → ℝ) → ℝ) := Submodule.span ℝ ((fun (i : ℕ) (g : ℕ → ℝ) => g i) '' S)

/-- Linear functionals of a stream, that depend on finitely many entries. -/
def Lin : Submodule ℝ ((ℕ → ℝ) → ℝ) := LinOn Set.univ

theorem LinOn.mono {S T : Set ℕ} (h : S ⊆ T) {f : (ℕ → ℝ) → ℝ} (hf : f ∈ LinOn S) : f ∈ LinOn T :=
  Submodule.span_mono (Set.image_mono h) hf

theorem LinOn.lin {S : Set ℕ} {f : (ℕ → ℝ) → ℝ} (hf : f ∈ LinOn S) : f ∈ Lin := LinOn.mono (Set.subset_univ S) hf

theorem LinOn.eval {S : Set ℕ} {i : ℕ} (h : i ∈ S) : (fun g : ℕ → ℝ => g i) ∈ LinOn S := Submodule.subset_span ⟨i, h, rfl⟩

theorem Lin.eval (i : ℕ) : (fun g : ℕ → ℝ => g i) ∈ Lin := LinOn.eval (Set.mem_univ i)

theorem LinOn.sum {S : Set ℕ} {ι : Type*} (s : Finset ι) (f : ι → (ℕ → ℝ) → ℝ) (h : ∀ i ∈ s, f i ∈ LinOn S) :
    (fun g => ∑ i ∈ s, f i g) ∈ LinOn S := by
  have := Submodule.sum_mem (LinOn S) h
  convert this using 1
  funext g
  simp

theorem Lin.sum {ι : Type*} (s : Finset ι) (f : ι → (ℕ → ℝ) → ℝ) (h : ∀ i ∈ s, f i ∈ Lin) : (fun g => ∑ i ∈ s, f i g) ∈ Lin :=
  LinOn.sum s f h

theorem LinOn.const_mul {S : Set ℕ} (a : ℝ) {f : (ℕ → ℝ) → ℝ} (h : f ∈ LinOn S) : (fun g => a * f g) ∈ LinOn S :=
  Submodule.smul_mem (LinOn S) a h

theorem Lin.const_mul (a : ℝ) {f : (ℕ → ℝ) → ℝ} (h : f ∈ Lin) : (fun g => a * f g) ∈ Lin := LinOn.const_mul a h

theorem Lin.skip (n : ℕ) {f : (ℕ → ℝ) → ℝ} (h : f ∈ Lin) : (fun g => f fun i => g (n + i)) ∈ LinOn {i | n ≤ i} := by
  refine Submodule.span_induction (p := fun f _ => (fun g : ℕ → ℝ => f fun i => g (n + i)) ∈ LinOn {i | n ≤ i}) ?_ ?_ ?_ ?_ h
  · rintro _ ⟨i, -, rfl⟩; exact LinOn.eval (i := n + i) (Nat.le_add_right n i)
  · exact Submodule.zero_mem _
  · intro x y _ _ hx hy; exact Submodule.add_mem _ hx hy
  · intro a x _ hx; exact Submodule.smul_mem _ a hx

/-- Functionals of disjoint parts of a white noise are uncorrelated. -/
theorem WhiteNoise.disjoint (hg : WhiteNoise μ g) {S T : Set ℕ} (hd : Disjoint S T) {f f' : (ℕ → ℝ) → ℝ} (hf : f ∈ LinOn S)
    (hf' : f' ∈ LinOn T) : Integrable (fun ω => f (g ω) * f' (g ω)) μ ∧ ∫ ω, f (g ω) * f' (g ω) ∂μ = 0 := by
  refine Submodule.span_induction₂ (p := fun f f' _ _ => Integrable (fun ω => f (g ω) * f' (g ω)) μ ∧
    ∫ ω, f (g ω) * f' (g ω) ∂μ = 0) ?_ ?_ ?_ ?_ ?_ ?_ ?_ hf hf'
  · rintro _ _ ⟨i, hi, rfl⟩ ⟨k, hk, rfl⟩
    refine ⟨hg.integrable_mul i k, ?_⟩
    have : i ≠ k := by rintro rfl; exact Set.disjoint_left.1 hd hi hk
    simp only [hg.cov i k, if_neg this]
  · intro y _; simp
  · intro x _; simp
  · rintro x y z _ _ _ ⟨h1, h2⟩ ⟨h3, h4⟩
    simp only [Pi.add_apply, add_mul]
    exact ⟨h1.add h3, by rw [integral_add h1 h3, h2, h4, add_zero]⟩
  · rintro x y z _ _ _ ⟨h1, h2⟩ ⟨h3, h4⟩
    simp only [Pi.add_apply, mul_add]
    exact ⟨h1.add h3, by rw [integral_add h1 h3, h2, h4, add_zero]⟩
  · rintro a x y _ _ ⟨h1, h2⟩
    simp only [Pi.smul_apply, smul_eq_mul, mul_assoc]
    exact ⟨h1.const_mul a, by rw [integral_const_mul, h2, mul_zero]⟩
  · rintro a x y _ _ ⟨h1, h2⟩
    simp only [Pi.smul_apply, smul_eq_mul, mul_left_comm _ a]
    exact ⟨h1.const_mul a, by rw [integral_const_mul, h2, mul_zero]⟩

/-- Finitely many linear functionals of standard normal draws are jointly Gaussian. -/
theorem StdNormal.gaussian (hg : StdNormal μ g) {κ : Type*} [Finite κ] (f : κ → (ℕ → ℝ) → ℝ) (hf : ∀ p, f p ∈ Lin) :
    HasGaussianLaw (fun ω p => f p (g ω)) μ := by
  classical
  have := Fintype.ofFinite κ
  choose c hc using fun p => Finsupp.mem_span_range_iff_exists_finsupp.1 (by rw [← Set.image_univ]; exact hf p)
  let S : Finset ℕ := univ.biUnion fun p => (c p).support
  have h1 : HasGaussianLaw (fun ω (i : S) => g ω i) μ := by
    refine iIndepFun.hasGaussianLaw (X := fun (i : S) ω => g ω i) (fun i => (hg.law i).hasGaussianLaw) ?_
    exact hg.indep.precomp Subtype.val_injective
  let L : (S → ℝ) →L[ℝ] (κ → ℝ) := ContinuousLinearMap.pi fun p => ∑ i : S, c p i • ContinuousLinearMap.proj (R := ℝ) (φ := fun _ : S => ℝ) i
  have h2 := h1.map_fun L
  have he : (fun ω p => f p (g ω)) = fun ω => L fun i => g ω ↑i := by
    funext ω p
    have h3 := congrFun (hc p) (g ω)
    rw [← h3]
    simp only [L, ContinuousLinearMap.pi_apply, _root_.sum_apply, _root_.smul_apply,
      ContinuousLinearMap.proj_apply, smul_eq_mul, Finsupp.sum]
    rw [Finset.sum_apply, Finset.sum_coe_sort S (fun i => c p i * g ω i)]
    refine (Finset.sum_subset (fun i hi => mem_biUnion.2 ⟨p, mem_univ _, hi⟩) fun i _ hi => ?_)
    simp [Finsupp.notMem_support_iff.1 hi]
  rw [he]
  exact h2

/-- Families of linear functionals of disjoint parts of a stream of standard normal draws are independent. -/
theorem StdNormal.independent (hg : StdNormal μ g) {S T : Set ℕ} (hd : Disjoint S T) {κ κ' : Type*} [Finite κ] [Finite κ']
    (f : κ → (ℕ → ℝ) → ℝ) (f' : κ' → (ℕ → ℝ) → ℝ) (hf : ∀ p, f p ∈ LinOn S) (hf' : ∀ p, f' p ∈ LinOn T) :
    IndepFun (fun ω p => f p (g ω)) (fun ω p => f' p (g ω)) μ := by
  have := Fintype.ofFinite κ
  have := Fintype.ofFinite κ'
  have hp := hg.isProbabilityMeasure
  have h1 : HasGaussianLaw (fun ω (p : κ ⊕ κ') => (Sum.elim f f' p) (g ω)) μ :=
    hg.gaussian _ (by rintro (p | p); exacts [LinOn.lin (hf p), LinOn.lin (hf' p)])
  let L : (κ ⊕ κ' → ℝ) →L[ℝ] (κ → ℝ) × (κ' → ℝ) :=
    (ContinuousLinearMap.pi fun p => ContinuousLinearMap.proj (R := ℝ) (φ := fun _ : κ ⊕ κ' => ℝ) (Sum.inl p)).prod
      (ContinuousLinearMap.pi fun p => ContinuousLinearMap.proj (R := ℝ) (φ := fun _ : κ ⊕ κ' => ℝ) (Sum.inr p))
  have h2 : HasGaussianLaw (fun ω => (fun p => f p (g ω), fun p => f' p (g ω))) μ := h1.map_fun L
  refine HasGaussianLaw.indepFun_of_covariance_eval (X := fun p ω => f p (g ω)) (Y := fun p ω => f' p (g ω)) h2 ?_
  intro p q
  have hm : MemLp (fun ω => f p (g ω)) 2 μ :=
    (h1.map_fun (ContinuousLinearMap.proj (R := ℝ) (φ := fun _ : κ ⊕ κ' => ℝ) (Sum.inl p))).memLp_two
  have hm' : MemLp (fun ω => f' q (g ω)) 2 μ :=
    (h1.map_fun (ContinuousLinearMap.proj (R := ℝ) (φ := fun _ : κ ⊕ κ' => ℝ) (Sum.inr q))).memLp_two
  rw [covariance_eq_sub hm hm']
  simp only [Pi.mul_apply]
  rw [(hg.whiteNoise.disjoint hd (hf p) (hf' q)).2]
  have h0 : ∫ ω, f p (g ω) ∂μ = 0 := by
    refine (Submodule.span_induction (p := fun f _ => Integrable (fun ω => f (g ω)) μ ∧ ∫ ω, f (g ω) ∂μ = 0) ?_ ?_ ?_ ?_ (hf p)).2
    · rintro _ ⟨i, -, rfl⟩; exact ⟨hg.whiteNoise.integrable i, hg.whiteNoise.mean i⟩
    · simp
    · rintro x y _ _ ⟨h1, h2⟩ ⟨h3, h4⟩
      simp only [Pi.add_apply]
      exact ⟨h1.add h3, by rw [integral_add h1 h3, h2, h4, add_zero]⟩
    · rintro a x _ ⟨h1, h2⟩
      simp only [Pi.smul_apply, smul_eq_mul]
      exact ⟨h1.const_mul a, by rw [integral_const_mul, h2, mul_zero]⟩
  rw [h0, zero_mul, sub_zero]

/-- A stream of standard normal draws, some of them consumed. -/
theorem StdNormal.skip (hg : StdNormal μ g) (n : ℕ) : StdNormal μ (fun ω i => g ω (n + i)) :=
  ⟨fun i => hg.law (n + i), hg.indep.precomp (add_right_injective n)⟩

/-- Mean and variance of a linear functional of a centred vector. -/
theorem dual_moments {ι : Type*} [Fintype ι] [DecidableEq ι] {X : Ω → ι → ℝ} (hX : HasGaussianLaw X μ) (hm : ∀ i, ∫ ω, X ω i ∂μ = 0)
    (L : StrongDual ℝ (ι → ℝ)) :
    ∫ ω, L (X ω) ∂μ = 0 ∧
    Var[fun ω => L (X ω); μ] = ∑ i, ∑ j, L (Pi.single i 1) * L (Pi.single j 1) * ∫ ω, X ω i * X ω j ∂μ := by
  have hp := hX.isProbabilityMeasure
  have hi : ∀ i, MemLp (fun ω => X ω i) 2 μ := fun i =>
    (hX.map_fun (ContinuousLinearMap.proj (R := ℝ) (φ := fun _ : ι => ℝ) i)).memLp_two
  have hL : ∀ x : ι → ℝ, L x = ∑ i, L (Pi.single i 1) * x i := by
    intro x
    have : x = ∑ i, x i • (Pi.single i 1 : ι → ℝ) := by
      funext k
      simp [Finset.sum_apply, Pi.single_apply]
    conv_lhs => rw [this]
    rw [map_sum]
    exact sum_congr rfl fun i _ => by rw [map_smul, smul_eq_mul, mul_comm]
  have hmean : ∫ ω, L (X ω) ∂μ = 0 := by
    rw [integral_congr_ae (Filter.Eventually.of_forall fun ω => hL (X ω))]
    rw [integral_finsetSum _ fun i _ => ((hi i).integrable (by norm_num)).const_mul _]
    exact sum_eq_zero fun i _ => by rw [integral_const_mul, hm, mul_zero]
  refine ⟨hmean, ?_⟩
  rw [variance_eq_sub ((hX.map_fun L).memLp_two), hmean]
  simp only [Pi.pow_apply, ne_eq, OfNat.ofNat_ne_zero, not_false_eq_true, zero_pow, sub_zero]
  have hsq : ∀ ω, L (X ω) ^ 2 = ∑ i, ∑ j, L (Pi.single i 1) * L (Pi.single j 1) * (X ω i * X ω j) := by
    intro ω
    rw [sq, hL, sum_mul_sum]
    exact sum_congr rfl fun i _ => sum_congr rfl fun j _ => by ring
  simp_rw [hsq]
  have hij : ∀ i j, Integrable (fun ω => X ω i * X ω j) μ := fun i j => (hi i).integrable_mul (hi j)
  rw [integral_finsetSum _ fun i _ => integrable_finsetSum _ fun j _ => (hij i j).const_mul _]
  refine sum_congr rfl fun i _ => ?_
  rw [integral_finsetSum _ fun j _ => (hij i j).const_mul _]
  exact sum_congr rfl fun j _ => by rw [integral_const_mul]

/-- The law of a centred Gaussian vector is determined by its covariances. -/
theorem law_eq_of_cov {ι : Type*} [Finite ι] {X : Ω → ι → ℝ} {Y : Ω' → ι → ℝ} (hX : HasGaussianLaw X μ)
    (hY : HasGaussianLaw Y ν) (mX : ∀ i, ∫ ω, X ω i ∂μ = 0) (mY : ∀ i, ∫ ω, Y ω i ∂ν = 0)
    (h : ∀ i j, ∫ ω, X ω i * X ω j ∂μ = ∫ ω, Y ω i * Y ω j ∂ν) : μ.map X = ν.map Y := by
  classical
  have := Fintype.ofFinite ι
  have hp := hX.isProbabilityMeasure
  have hq := hY.isProbabilityMeasure
  have := Measure.isProbabilityMeasure_map hX.aemeasurable
  have := Measure.isProbabilityMeasure_map hY.aemeasurable
  apply Measure.ext_of_charFunDual
  funext L
  rw [hX.charFunDual_map_eq_fun, hY.charFunDual_map_eq_fun, (dual_moments hX mX L).1, (dual_moments hX mX L).2,
    (dual_moments hY mY L).1, (dual_moments hY mY L).2]
  simp_rw [h]

end

end MFA
