import Verif.Props.SimulMrwLaw
import Verif.Lemmas.Wick
import Verif.Lemmas.Ergodic
import Mathlib.Algebra.Order.Chebyshev

/-! Combinations of log-normally modulated white noise: independence at a distance, second and fourth moments, law of large numbers. -/

namespace MFA

open Classical Finset MeasureTheory ProbabilityTheory

noncomputable section

variable {Ω : Type*} [MeasurableSpace Ω] {μ : Measure Ω}

/-- Standard white noise `e` and an independent stationary Gaussian process `w` with covariance `ρ`, over `N` instants. -/
structure ModulatedNoise (μ : Measure Ω) (N : ℕ) (e w : ℕ → Ω → ℝ) (ρ : ℕ → ℝ) : Prop where
  gauss_e : HasGaussianLaw (fun ω (n : Fin N) => e n ω) μ
  gauss_w : HasGaussianLaw (fun ω (n : Fin N) => w n ω) μ
  indep : IndepFun (fun ω (n : Fin N) => e n ω) (fun ω (n : Fin N) => w n ω) μ
  mean_e : ∀ n < N, ∫ ω, e n ω ∂μ = 0
  mean_w : ∀ n < N, ∫ ω, w n ω ∂μ = 0
  cov_e : ∀ n < N, ∀ m < N, ∫ ω, e n ω * e m ω ∂μ = if n = m then 1 else 0
  cov_w : ∀ n < N, ∀ m < N, ∫ ω, w n ω * w m ω ∂μ = ρ (Int.natAbs ((n : ℤ) - m))

/-- The combination `∑ C_n e_n exp(w_n)` over the instants of `I`. -/
def modSum (e w : ℕ → Ω → ℝ) (I : Finset ℕ) (C : ℕ → ℝ) (ω : Ω) : ℝ := ∑ n ∈ I, C n * (e n ω * Real.exp (w n ω))

namespace ModulatedNoise

variable {N : ℕ} {e w : ℕ → Ω → ℝ} {ρ : ℕ → ℝ}

theorem prob (h : ModulatedNoise μ N e w ρ) : IsProbabilityMeasure μ := h.gauss_e.isProbabilityMeasure

theorem law_e (h : ModulatedNoise μ N e w ρ) {n : ℕ} (hn : n < N) : HasGaussianLaw (e n) μ :=
  h.gauss_e.map_fun (ContinuousLinearMap.proj (R := ℝ) (φ := fun _ : Fin N => ℝ) ⟨n, hn⟩)

theorem law_w (h : ModulatedNoise μ N e w ρ) {n : ℕ} (hn : n < N) : HasGaussianLaw (w n) μ :=
  h.gauss_w.map_fun (ContinuousLinearMap.proj (R := ℝ) (φ := fun _ : Fin N => ℝ) ⟨n, hn⟩)

theorem indep_pair (h : ModulatedNoise μ N e w ρ) {n m : ℕ} (hn : n < N) (hm : m < N) : IndepFun (e n) (w m) μ :=
  h.indep.comp (φ := fun x : Fin N → ℝ => x ⟨n, hn⟩) (ψ := fun x : Fin N → ℝ => x ⟨m, hm⟩) (measurable_pi_apply _) (measurable_pi_apply _)

/-- Combinations over distant sets of instants are independent. -/
theorem indep_sums (h : ModulatedNoise μ N e w ρ) {I J : Finset ℕ} (hI : ∀ n ∈ I, n < N) (hJ : ∀ n ∈ J, n < N)
    (hne : ∀ a ∈ I, ∀ b ∈ J, a ≠ b) (hρ : ∀ a ∈ I, ∀ b ∈ J, ρ (Int.natAbs ((a : ℤ) - b)) = 0) (C C' : ℕ → ℝ) :
    IndepFun (modSum e w I C) (modSum e w J C') μ := by
  have hp := h.prob
  have hG := IndepFun.hasGaussianLaw h.gauss_e h.gauss_w h.indep
  let X : (K : Finset ℕ) → K ⊕ K → Ω → ℝ := fun K => Sum.elim (fun n => e n) (fun n => w n)
  let T : (K : Finset ℕ) → (∀ n ∈ K, n < N) → ((Fin N → ℝ) × (Fin N → ℝ)) →L[ℝ] (K ⊕ K → ℝ) := fun K hK =>
    ContinuousLinearMap.pi (Sum.elim
      (fun n : K => (ContinuousLinearMap.proj (R := ℝ) (φ := fun _ : Fin N => ℝ) ⟨n.1, hK n.1 n.2⟩).comp (ContinuousLinearMap.fst ℝ _ _))
      (fun n : K => (ContinuousLinearMap.proj (R := ℝ) (φ := fun _ : Fin N => ℝ) ⟨n.1, hK n.1 n.2⟩).comp (ContinuousLinearMap.snd ℝ _ _)))
  have hT : ∀ (K : Finset ℕ) (hK : ∀ n ∈ K, n < N) (ω : Ω), T K hK ((fun n : Fin N => e n ω), fun n : Fin N => w n ω) = fun i => X K i ω := by
    intro K hK ω
    funext i
    rcases i with n | n <;> rfl
  have hXY : HasGaussianLaw (fun ω => ((fun i => X I i ω), fun i => X J i ω)) μ := by
    have := hG.map_fun ((T I hI).prod (T J hJ))
    refine this.congr (Filter.Eventually.of_forall fun ω => ?_)
    show ((T I hI) _, (T J hJ) _) = _
    rw [hT, hT]
  have cov0 : ∀ {f g : Ω → ℝ}, HasGaussianLaw f μ → HasGaussianLaw g μ → ∫ ω, f ω ∂μ = 0 → ∫ ω, f ω * g ω ∂μ = 0 → cov[f, g; μ] = 0 := by
    intro f g hf hg h0 h1
    rw [covariance_eq_sub hf.memLp_two hg.memLp_two, h0, zero_mul, sub_zero]
    exact h1
  have hind := hXY.indepFun_of_covariance_eval (X := X I) (Y := X J) (by
    have cross : ∀ n < N, ∀ m < N, ∫ ω, e n ω * w m ω ∂μ = 0 := by
      intro n hn m hm
      have := (h.indep_pair hn hm).integral_mul_eq_mul_integral (h.law_e hn).aemeasurable.aestronglyMeasurable
        (h.law_w hm).aemeasurable.aestronglyMeasurable
      rw [show (∫ ω, e n ω * w m ω ∂μ) = ∫ ω, (e n * w m) ω ∂μ from rfl, this, h.mean_e n hn, zero_mul]
    rintro (⟨a, ha⟩ | ⟨a, ha⟩) (⟨b, hb⟩ | ⟨b, hb⟩)
    · refine cov0 (h.law_e (hI a ha)) (h.law_e (hJ b hb)) (h.mean_e a (hI a ha)) ?_
      show ∫ ω, e a ω * e b ω ∂μ = 0
      rw [h.cov_e a (hI a ha) b (hJ b hb), if_neg (hne a ha b hb)]
    · exact cov0 (h.law_e (hI a ha)) (h.law_w (hJ b hb)) (h.mean_e a (hI a ha)) (cross a (hI a ha) b (hJ b hb))
    · refine cov0 (h.law_w (hI a ha)) (h.law_e (hJ b hb)) (h.mean_w a (hI a ha)) ?_
      rw [← cross b (hJ b hb) a (hI a ha)]
      exact integral_congr_ae (Filter.Eventually.of_forall fun ω => mul_comm _ _)
    · refine cov0 (h.law_w (hI a ha)) (h.law_w (hJ b hb)) (h.mean_w a (hI a ha)) ?_
      show ∫ ω, w a ω * w b ω ∂μ = 0
      rw [h.cov_w a (hI a ha) b (hJ b hb), hρ a ha b hb])
  have hφ : ∀ (K : Finset ℕ) (c : ℕ → ℝ), Measurable fun x : K ⊕ K → ℝ => ∑ n : K, c n * (x (Sum.inl n) * Real.exp (x (Sum.inr n))) := by
    intro K c
    fun_prop
  have := hind.comp (hφ I C) (hφ J C')
  have e1 : ∀ (K : Finset ℕ) (c : ℕ → ℝ), modSum e w K c =
      (fun x : K ⊕ K → ℝ => ∑ n : K, c n * (x (Sum.inl n) * Real.exp (x (Sum.inr n)))) ∘ fun ω i => X K i ω := by
    intro K c
    funext ω
    simp only [modSum, Function.comp_apply]
    rw [← Finset.sum_coe_sort K]
    rfl
  rw [e1 I C, e1 J C']
  exact this

/-- Exponential moments of the log-volatility. -/
theorem exp_w (h : ModulatedNoise μ N e w ρ) {n : ℕ} (hn : n < N) (t : ℝ) :
    Integrable (fun ω => Real.exp (t * w n ω)) μ ∧ ∫ ω, Real.exp (t * w n ω) ∂μ = Real.exp (t ^ 2 * ρ 0 / 2) := by
  have := MFA.exp_lin (ι := Fin 1) (X := fun ω _ => w n ω) (by
      have := h.gauss_w.map_fun (ContinuousLinearMap.pi (fun _ : Fin 1 => ContinuousLinearMap.proj (R := ℝ) (φ := fun _ : Fin N => ℝ) ⟨n, hn⟩))
      refine this.congr (Filter.Eventually.of_forall fun ω => ?_)
      funext i
      rfl)
    (fun _ => h.mean_w n hn) (fun _ => t)
  simp only [univ_unique, sum_singleton, h.cov_w n hn n hn, sub_self, Int.natAbs_zero] at this
  refine ⟨this.1, this.2.trans ?_⟩
  congr 1; ring

theorem exp_w2 (h : ModulatedNoise μ N e w ρ) {n m : ℕ} (hn : n < N) (hm : m < N) :
    Integrable (fun ω => Real.exp (2 * w n ω) * Real.exp (2 * w m ω)) μ ∧
    ∫ ω, Real.exp (2 * w n ω) * Real.exp (2 * w m ω) ∂μ = Real.exp (4 * ρ 0 + 4 * ρ (Int.natAbs ((n : ℤ) - m))) := by
  have := MFA.exp_lin (ι := Fin 2) (X := fun ω i => ![w n ω, w m ω] i) (by
      have := h.gauss_w.map_fun (ContinuousLinearMap.pi (![ContinuousLinearMap.proj (R := ℝ) (φ := fun _ : Fin N => ℝ) ⟨n, hn⟩,
        ContinuousLinearMap.proj (R := ℝ) (φ := fun _ : Fin N => ℝ) ⟨m, hm⟩]))
      refine this.congr (Filter.Eventually.of_forall fun ω => ?_)
      funext i
      fin_cases i <;> rfl)
    (by intro i; fin_cases i; exacts [h.mean_w n hn, h.mean_w m hm]) (fun _ => 2)
  simp only [Fin.sum_univ_two, Matrix.cons_val_zero, Matrix.cons_val_one, h.cov_w n hn n hn, h.cov_w n hn m hm, h.cov_w m hm n hn,
    h.cov_w m hm m hm, sub_self, Int.natAbs_zero, Real.exp_add] at this
  refine ⟨this.1, this.2.trans ?_⟩
  congr 1
  rw [show ((m : ℤ) - n) = -((n : ℤ) - m) by ring, Int.natAbs_neg]
  ring

/-- Average over the noise, the volatility being held fixed. -/
theorem fubini (h : ModulatedNoise μ N e w ρ) {F : (Fin N → ℝ) → (Fin N → ℝ) → ℝ} (hF : Measurable (Function.uncurry F))
    (hI : Integrable (fun ω => F (fun n => w n ω) (fun n => e n ω)) μ) :
    ∫ ω, F (fun n => w n ω) (fun n => e n ω) ∂μ = ∫ ω, ∫ ω', F (fun n => w n ω) (fun n => e n ω') ∂μ ∂μ := by
  have hp := h.prob
  have hprod := (indepFun_iff_map_prod_eq_prod_map_map h.gauss_w.aemeasurable h.gauss_e.aemeasurable).1 h.indep.symm
  have hm : AEMeasurable (fun ω => ((fun n : Fin N => w n ω), (fun n : Fin N => e n ω))) μ := h.gauss_w.aemeasurable.prodMk h.gauss_e.aemeasurable
  have := Measure.isProbabilityMeasure_map h.gauss_w.aemeasurable
  have := Measure.isProbabilityMeasure_map h.gauss_e.aemeasurable
  have e1 : ∫ ω, F (fun n => w n ω) (fun n => e n ω) ∂μ =
      ∫ z, Function.uncurry F z ∂((μ.map fun ω (n : Fin N) => w n ω).prod (μ.map fun ω (n : Fin N) => e n ω)) := by
    rw [← hprod, integral_map hm hF.aestronglyMeasurable]
    rfl
  have hI' : Integrable (Function.uncurry F) ((μ.map fun ω (n : Fin N) => w n ω).prod (μ.map fun ω (n : Fin N) => e n ω)) := by
    rw [← hprod, integrable_map_measure hF.aestronglyMeasurable hm]
    exact hI
  rw [e1, integral_prod _ hI', integral_map h.gauss_w.aemeasurable]
  · refine integral_congr_ae (Filter.Eventually.of_forall fun ω => ?_)
    show ∫ y, F _ y ∂_ = _
    rw [integral_map h.gauss_e.aemeasurable]
    exact (hF.comp (measurable_const.prodMk measurable_id)).aestronglyMeasurable
  · exact hI'.integral_prod_left.aestronglyMeasurable

theorem eighth (h : ModulatedNoise μ N e w ρ) {n : ℕ} (hn : n < N) :
    Integrable (fun ω => (e n ω * Real.exp (w n ω)) ^ 8) μ ∧
    ∫ ω, (e n ω * Real.exp (w n ω)) ^ 8 ∂μ = (∫ y, y ^ 8 ∂gaussianReal 0 1) * Real.exp (32 * ρ 0) := by
  have hp := h.prob
  have hG := h.law_e hn
  have hind : IndepFun (fun ω => e n ω ^ 8) (fun ω => Real.exp (8 * w n ω)) μ :=
    (h.indep_pair hn hn).comp (φ := fun x : ℝ => x ^ 8) (ψ := fun x : ℝ => Real.exp (8 * x)) (by fun_prop) (by fun_prop)
  have i1 : Integrable (fun ω => e n ω ^ 8) μ := by
    have := (hG.memLp (p := 8) (by norm_num)).integrable_norm_pow (by norm_num)
    refine this.congr (Filter.Eventually.of_forall fun ω => ?_)
    show |e n ω| ^ 8 = e n ω ^ 8
    rw [show (8:ℕ) = 2 * 4 from rfl, pow_mul, sq_abs, ← pow_mul]
  have e1 : (fun ω => (e n ω * Real.exp (w n ω)) ^ 8) = (fun ω => e n ω ^ 8) * fun ω => Real.exp (8 * w n ω) := by
    funext ω
    show _ = e n ω ^ 8 * Real.exp (8 * w n ω)
    rw [mul_pow, ← Real.exp_nat_mul]; norm_num
  have hlaw : μ.map (e n) = gaussianReal 0 1 := by
    have e2 := hG.map_eq_gaussianReal
    have hv : Var[e n; μ] = 1 := by
      rw [variance_eq_sub hG.memLp_two, h.mean_e n hn]
      have := h.cov_e n hn n hn
      rw [if_pos rfl] at this
      simp only [Pi.pow_apply, sq, this]; norm_num
    rw [e2, hv, h.mean_e n hn]; simp
  rw [e1]
  refine ⟨hind.integrable_mul i1 (h.exp_w hn 8).1, ?_⟩
  rw [show (∫ ω, ((fun ω => e n ω ^ 8) * fun ω => Real.exp (8 * w n ω)) ω ∂μ) = (∫ ω, e n ω ^ 8 ∂μ) * ∫ ω, Real.exp (8 * w n ω) ∂μ from
    hind.integral_mul_eq_mul_integral i1.aestronglyMeasurable (h.exp_w hn 8).1.aestronglyMeasurable, (h.exp_w hn 8).2]
  congr 1
  · rw [← hlaw, integral_map hG.aemeasurable (by fun_prop)]
  · congr 1; ring

theorem sum_meas (h : ModulatedNoise μ N e w ρ) {I : Finset ℕ} (hI : ∀ n ∈ I, n < N) (C : ℕ → ℝ) : AEMeasurable (modSum e w I C) μ := by
  unfold modSum
  refine Finset.aemeasurable_fun_sum _ fun n hn => ?_
  exact ((h.law_e (hI n hn)).aemeasurable.mul (Real.measurable_exp.comp_aemeasurable (h.law_w (hI n hn)).aemeasurable)).const_mul _

theorem sum_eighth (h : ModulatedNoise μ N e w ρ) {I : Finset ℕ} (hI : ∀ n ∈ I, n < N) (C : ℕ → ℝ) :
    Integrable (fun ω => modSum e w I C ω ^ 8) μ ∧
    ∫ ω, modSum e w I C ω ^ 8 ∂μ ≤ (I.card : ℝ) ^ 7 * (∑ n ∈ I, C n ^ 8) * ((∫ y, y ^ 8 ∂gaussianReal 0 1) * Real.exp (32 * ρ 0)) := by
  have i1 : Integrable (fun ω => (I.card : ℝ) ^ 7 * ∑ n ∈ I, C n ^ 8 * (e n ω * Real.exp (w n ω)) ^ 8) μ :=
    (integrable_finsetSum _ fun n hn => ((h.eighth (hI n hn)).1.const_mul _)).const_mul _
  have hle : ∀ ω, modSum e w I C ω ^ 8 ≤ (I.card : ℝ) ^ 7 * ∑ n ∈ I, C n ^ 8 * (e n ω * Real.exp (w n ω)) ^ 8 := by
    intro ω
    by_cases hI0 : I = ∅
    · subst hI0; simp [modSum]
    have hc : (0:ℝ) < I.card := by exact_mod_cast Finset.card_pos.2 (Finset.nonempty_iff_ne_empty.2 hI0)
    have h1 : modSum e w I C ω ^ 8 ≤ (∑ n ∈ I, |C n * (e n ω * Real.exp (w n ω))|) ^ 8 := by
      rw [show (8:ℕ) = 2 * 4 from rfl, pow_mul, pow_mul, ← sq_abs (modSum e w I C ω)]
      exact pow_le_pow_left₀ (by positivity) (pow_le_pow_left₀ (abs_nonneg _) (abs_sum_le_sum_abs _ _) 2) 4
    have h2 := pow_sum_div_card_le_sum_pow (s := I) (f := fun n => |C n * (e n ω * Real.exp (w n ω))|) (fun _ _ => abs_nonneg _) 7
    rw [div_le_iff₀ (by positivity)] at h2
    refine h1.trans (h2.trans (le_of_eq ?_))
    rw [mul_comm]
    congr 1
    refine sum_congr rfl fun n _ => ?_
    rw [show 7 + 1 = 2 * 4 from rfl, pow_mul, sq_abs, ← pow_mul, mul_pow]
  have hm := h.sum_meas hI C
  refine ⟨?_, ?_⟩
  · refine i1.mono' (hm.pow_const 8).aestronglyMeasurable (Filter.Eventually.of_forall fun ω => ?_)
    rw [Real.norm_eq_abs, abs_of_nonneg (by rw [show (8:ℕ) = 2 * 4 from rfl, pow_mul]; positivity)]
    exact hle ω
  · refine (integral_mono_of_nonneg (Filter.Eventually.of_forall fun ω => ?_) i1 (Filter.Eventually.of_forall hle)).trans (le_of_eq ?_)
    · show (0:ℝ) ≤ modSum e w I C ω ^ 8
      rw [show (8:ℕ) = 2 * 4 from rfl, pow_mul]; positivity
    · rw [integral_const_mul, integral_finsetSum _ fun n hn => (h.eighth (hI n hn)).1.const_mul _, mul_assoc, sum_mul]
      congr 1
      refine sum_congr rfl fun n hn => ?_
      rw [integral_const_mul, (h.eighth (hI n hn)).2]

theorem sum_pow_integrable (h : ModulatedNoise μ N e w ρ) {I : Finset ℕ} (hI : ∀ n ∈ I, n < N) (C : ℕ → ℝ) {k : ℕ} (hk : k ≤ 8) :
    Integrable (fun ω => modSum e w I C ω ^ k) μ := by
  have hp := h.prob
  refine ((integrable_const (1:ℝ)).add (h.sum_eighth hI C).1).mono' ((h.sum_meas hI C).pow_const k).aestronglyMeasurable
    (Filter.Eventually.of_forall fun ω => ?_)
  rw [Real.norm_eq_abs, abs_pow]
  show |modSum e w I C ω| ^ k ≤ 1 + modSum e w I C ω ^ 8
  have e8 : modSum e w I C ω ^ 8 = |modSum e w I C ω| ^ 8 := by
    rw [show (8:ℕ) = 2 * 4 from rfl, pow_mul, pow_mul, sq_abs]
  rw [e8]
  rcases le_total (|modSum e w I C ω|) 1 with h1 | h1
  · have := pow_le_one₀ (n := k) (abs_nonneg _) h1
    have : 0 ≤ |modSum e w I C ω| ^ 8 := by positivity
    linarith
  · have := pow_le_pow_right₀ h1 hk
    linarith

/-- Sums over `I` as sums over all instants. -/
theorem sum_full {I : Finset ℕ} (hI : ∀ n ∈ I, n < N) (f : ℕ → ℝ) : ∑ n ∈ I, f n = ∑ n : Fin N, if (n : ℕ) ∈ I then f n else 0 := by
  rw [Fin.sum_univ_eq_sum_range (fun n => if n ∈ I then f n else 0) N, ← sum_filter]
  refine sum_congr ?_ fun _ _ => rfl
  ext n
  simp only [mem_filter, mem_range]
  exact ⟨fun hn => ⟨hI n hn, hn⟩, fun hn => hn.2⟩

/-- A combination of the noise with fixed coefficients. -/
theorem lin_e (h : ModulatedNoise μ N e w ρ) (c : Fin N → ℝ) : HasGaussianLaw (fun ω => ∑ n : Fin N, c n * e n ω) μ ∧
    ∫ ω, ∑ n : Fin N, c n * e n ω ∂μ = 0 ∧ ∫ ω, (∑ n : Fin N, c n * e n ω) ^ 2 ∂μ = ∑ n : Fin N, c n ^ 2 := by
  have hp := h.prob
  have ie : ∀ n : Fin N, Integrable (e n) μ := fun n => (h.law_e n.2).integrable
  have iee : ∀ n m : Fin N, Integrable (fun ω => e n ω * e m ω) μ := fun n m => (h.law_e n.2).memLp_two.integrable_mul (h.law_e m.2).memLp_two
  refine ⟨?_, ?_, ?_⟩
  · have := h.gauss_e.map_fun (∑ n : Fin N, c n • ContinuousLinearMap.proj (R := ℝ) (φ := fun _ : Fin N => ℝ) n)
    refine this.congr (Filter.Eventually.of_forall fun ω => ?_)
    simp
  · rw [integral_finsetSum _ fun n _ => (ie n).const_mul _]
    refine sum_eq_zero fun n _ => ?_
    rw [integral_const_mul, h.mean_e n n.2, mul_zero]
  · have e1 : ∀ ω, (∑ n : Fin N, c n * e n ω) ^ 2 = ∑ n : Fin N, ∑ m : Fin N, c n * c m * (e n ω * e m ω) := by
      intro ω
      rw [sq, sum_mul_sum]
      exact sum_congr rfl fun n _ => sum_congr rfl fun m _ => by ring
    simp only [e1]
    rw [integral_finsetSum _ fun n _ => integrable_finsetSum _ fun m _ => (iee n m).const_mul _]
    refine sum_congr rfl fun n _ => ?_
    rw [integral_finsetSum _ fun m _ => (iee n m).const_mul _]
    rw [sum_eq_single n]
    · rw [integral_const_mul, h.cov_e n n.2 n n.2, if_pos rfl]; ring
    · intro m _ hm
      rw [integral_const_mul, h.cov_e n n.2 m m.2, if_neg (fun hh => hm (Fin.ext hh.symm)), mul_zero]
    · simp

theorem sum_second (h : ModulatedNoise μ N e w ρ) {I : Finset ℕ} (hI : ∀ n ∈ I, n < N) (C : ℕ → ℝ) :
    ∫ ω, modSum e w I C ω ^ 2 ∂μ = Real.exp (2 * ρ 0) * ∑ n ∈ I, C n ^ 2 := by
  have e1 : ∀ ω, modSum e w I C ω = ∑ n : Fin N, (if (n : ℕ) ∈ I then C n * Real.exp (w n ω) else 0) * e n ω := by
    intro ω
    rw [modSum, sum_full hI]
    refine sum_congr rfl fun n _ => ?_
    split <;> ring
  have hF := h.fubini (F := fun y x => (∑ n : Fin N, (if (n : ℕ) ∈ I then C n * Real.exp (y n) else 0) * x n) ^ 2)
    (by
      refine Measurable.pow_const ?_ 2
      refine Finset.measurable_fun_sum _ fun n _ => Measurable.mul ?_ (by fun_prop)
      split <;> fun_prop) (by
      simp only [← e1]
      exact h.sum_pow_integrable hI C (by norm_num))
  simp only [e1]
  rw [hF]
  simp only [(h.lin_e _).2.2]
  have e2 : ∀ ω, ∑ n : Fin N, (if (n : ℕ) ∈ I then C n * Real.exp (w n ω) else 0) ^ 2 = ∑ n ∈ I, C n ^ 2 * Real.exp (2 * w n ω) := by
    intro ω
    rw [sum_full hI]
    refine sum_congr rfl fun n _ => ?_
    split
    · rw [mul_pow, ← Real.exp_nat_mul]; norm_num
    · norm_num
  simp only [e2]
  rw [integral_finsetSum _ fun n hn => (h.exp_w (hI n hn) 2).1.const_mul _, mul_sum]
  refine sum_congr rfl fun n hn => ?_
  rw [integral_const_mul, (h.exp_w (hI n hn) 2).2, mul_comm]
  congr 2; ring

theorem sum_fourth (h : ModulatedNoise μ N e w ρ) {I : Finset ℕ} (hI : ∀ n ∈ I, n < N) (C : ℕ → ℝ) :
    ∫ ω, modSum e w I C ω ^ 4 ∂μ = 3 * ∑ n ∈ I, ∑ m ∈ I, C n ^ 2 * C m ^ 2 * Real.exp (4 * ρ 0 + 4 * ρ (Int.natAbs ((n : ℤ) - m))) := by
  have e1 : ∀ ω, modSum e w I C ω = ∑ n : Fin N, (if (n : ℕ) ∈ I then C n * Real.exp (w n ω) else 0) * e n ω := by
    intro ω
    rw [modSum, sum_full hI]
    refine sum_congr rfl fun n _ => ?_
    split <;> ring
  have hF := h.fubini (F := fun y x => (∑ n : Fin N, (if (n : ℕ) ∈ I then C n * Real.exp (y n) else 0) * x n) ^ 4)
    (by
      refine Measurable.pow_const ?_ 4
      refine Finset.measurable_fun_sum _ fun n _ => Measurable.mul ?_ (by fun_prop)
      split <;> fun_prop) (by
      simp only [← e1]
      exact h.sum_pow_integrable hI C (by norm_num))
  simp only [e1]
  rw [hF]
  have e3 : ∀ c : Fin N → ℝ, ∫ ω, (∑ n : Fin N, c n * e n ω) ^ 4 ∂μ = 3 * (∑ n : Fin N, c n ^ 2) ^ 2 := by
    intro c
    obtain ⟨a1, a2, a3⟩ := h.lin_e c
    rw [gaussian_fourth_moment a1 a2, a3]
  simp only [e3]
  have e2 : ∀ ω, 3 * (∑ n : Fin N, (if (n : ℕ) ∈ I then C n * Real.exp (w n ω) else 0) ^ 2) ^ 2 =
      3 * ∑ n ∈ I, ∑ m ∈ I, C n ^ 2 * C m ^ 2 * (Real.exp (2 * w n ω) * Real.exp (2 * w m ω)) := by
    intro ω
    have : ∑ n : Fin N, (if (n : ℕ) ∈ I then C n * Real.exp (w n ω) else 0) ^ 2 = ∑ n ∈ I, C n ^ 2 * Real.exp (2 * w n ω) := by
      rw [sum_full hI]
      refine sum_congr rfl fun n _ => ?_
      split
      · rw [mul_pow, ← Real.exp_nat_mul]; norm_num
      · norm_num
    rw [this, sq, sum_mul_sum]
    congr 1
    exact sum_congr rfl fun n _ => sum_congr rfl fun m _ => by ring
  simp only [e2]
  rw [integral_const_mul, integral_finsetSum _ fun n hn => integrable_finsetSum _ fun m hm => (h.exp_w2 (hI n hn) (hI m hm)).1.const_mul _]
  congr 1
  refine sum_congr rfl fun n hn => ?_
  rw [integral_finsetSum _ fun m hm => (h.exp_w2 (hI n hn) (hI m hm)).1.const_mul _]
  refine sum_congr rfl fun m hm => ?_
  rw [integral_const_mul, (h.exp_w2 (hI n hn) (hI m hm)).2]

end ModulatedNoise

/-- The mean of variables of the same mean, independent beyond the distance `T`, is close to their mean. -/
theorem mean_error [IsProbabilityMeasure μ] (K : Finset ℕ) (hK : K.Nonempty) {Z : ℕ → Ω → ℝ} {m D : ℝ} {T : ℕ}
    (hL : ∀ k ∈ K, MemLp (Z k) 2 μ) (hm : ∀ k ∈ K, ∫ ω, Z k ω ∂μ = m) (hD : ∀ k ∈ K, ∫ ω, Z k ω ^ 2 ∂μ ≤ D)
    (hind : ∀ k ∈ K, ∀ l ∈ K, T < Int.natAbs ((k : ℤ) - l) → IndepFun (Z k) (Z l) μ) :
    Integrable (fun ω => ((∑ k ∈ K, Z k ω) / K.card - m) ^ 2) μ ∧
    ∫ ω, ((∑ k ∈ K, Z k ω) / K.card - m) ^ 2 ∂μ ≤ (2 * T + 1) * D / K.card := by
  have hn : (0:ℝ) < K.card := by exact_mod_cast Finset.card_pos.2 hK
  have hLm : ∀ k ∈ K, MemLp (fun ω => Z k ω - m) 2 μ := fun k hk => (hL k hk).sub (memLp_const m)
  have iZ : ∀ k ∈ K, Integrable (Z k) μ := fun k hk => (hL k hk).integrable (by norm_num)
  have iP : ∀ k ∈ K, ∀ l ∈ K, Integrable (fun ω => (Z k ω - m) * (Z l ω - m)) μ := fun k hk l hl => (hLm k hk).integrable_mul (hLm l hl)
  have e1 : ∀ ω, ((∑ k ∈ K, Z k ω) / K.card - m) ^ 2 = (∑ k ∈ K, ∑ l ∈ K, (Z k ω - m) * (Z l ω - m)) / (K.card : ℝ) ^ 2 := by
    intro ω
    rw [← sum_mul_sum, sum_sub_distrib, sum_const, nsmul_eq_mul]
    field_simp
  simp only [e1]
  refine ⟨(integrable_finsetSum _ fun k hk => integrable_finsetSum _ fun l hl => iP k hk l hl).div_const _, ?_⟩
  rw [integral_div, integral_finsetSum _ fun k hk => integrable_finsetSum _ fun l hl => iP k hk l hl]
  have hvar : ∀ k ∈ K, ∫ ω, (Z k ω - m) ^ 2 ∂μ ≤ D := by
    intro k hk
    have : ∀ ω, (Z k ω - m) ^ 2 = Z k ω ^ 2 - 2 * m * Z k ω + m ^ 2 := fun ω => by ring
    simp only [this]
    have i2 : Integrable (fun ω => Z k ω ^ 2 - 2 * m * Z k ω) μ := (hL k hk).integrable_sq.sub ((iZ k hk).const_mul _)
    rw [integral_add i2 (integrable_const _),
      integral_sub (hL k hk).integrable_sq ((iZ k hk).const_mul _), integral_const_mul, hm k hk, integral_const]
    have := hD k hk
    simp only [probReal_univ, one_smul]
    nlinarith [sq_nonneg m]
  have hD0 : 0 ≤ D := by
    obtain ⟨k, hk⟩ := hK
    exact (integral_nonneg fun ω => sq_nonneg _).trans (hvar k hk)
  have hcov : ∀ k ∈ K, ∀ l ∈ K, ∫ ω, (Z k ω - m) * (Z l ω - m) ∂μ ≤ if Int.natAbs ((k : ℤ) - l) ≤ T then D else 0 := by
    intro k hk l hl
    split
    · have h1 : ∫ ω, (Z k ω - m) * (Z l ω - m) ∂μ ≤ ∫ ω, ((Z k ω - m) ^ 2 + (Z l ω - m) ^ 2) / 2 ∂μ := by
        refine integral_mono (iP k hk l hl) (((hLm k hk).integrable_sq.add (hLm l hl).integrable_sq).div_const _) fun ω => ?_
        show (Z k ω - m) * (Z l ω - m) ≤ ((Z k ω - m) ^ 2 + (Z l ω - m) ^ 2) / 2
        nlinarith [sq_nonneg ((Z k ω - m) - (Z l ω - m))]
      rw [integral_div, integral_add (hLm k hk).integrable_sq (hLm l hl).integrable_sq] at h1
      have := hvar k hk
      have := hvar l hl
      linarith
    · rename_i hT
      have hi := (hind k hk l hl (by omega)).comp (φ := fun x => x - m) (ψ := fun x => x - m) (by fun_prop) (by fun_prop)
      have h1 := hi.integral_mul_eq_mul_integral (hLm k hk).aestronglyMeasurable (hLm l hl).aestronglyMeasurable
      have h2 : ∫ ω, (Z k ω - m) * (Z l ω - m) ∂μ = (∫ ω, Z k ω - m ∂μ) * ∫ ω, Z l ω - m ∂μ := h1
      rw [h2, integral_sub (iZ k hk) (integrable_const _), hm k hk]
      simp
  have hrow : ∀ k ∈ K, ∑ l ∈ K, ∫ ω, (Z k ω - m) * (Z l ω - m) ∂μ ≤ (2 * T + 1) * D := by
    intro k hk
    refine (sum_le_sum fun l hl => hcov k hk l hl).trans ?_
    rw [← sum_filter, sum_const, nsmul_eq_mul]
    refine mul_le_mul_of_nonneg_right ?_ hD0
    have hsub : (K.filter fun l : ℕ => Int.natAbs ((k : ℤ) - l) ≤ T) ⊆ Finset.Icc (k - T) (k + T) := by
      intro l hl
      rw [Finset.mem_filter] at hl
      rw [Finset.mem_Icc]
      omega
    have := Finset.card_le_card hsub
    rw [Nat.card_Icc] at this
    have h3 : (K.filter fun l : ℕ => Int.natAbs ((k : ℤ) - l) ≤ T).card ≤ 2 * T + 1 := by omega
    exact_mod_cast h3
  have hall : ∑ k ∈ K, ∫ ω, ∑ l ∈ K, (Z k ω - m) * (Z l ω - m) ∂μ ≤ K.card * ((2 * T + 1) * D) := by
    refine (sum_le_sum fun k hk => (?_ : _ ≤ (2 * T + 1) * D)).trans (le_of_eq (by rw [sum_const, nsmul_eq_mul]))
    rw [integral_finsetSum _ fun l hl => iP k hk l hl]
    exact hrow k hk
  rw [div_le_div_iff₀ (by positivity) hn]
  nlinarith

end

end MFA
