import Verif.Lemmas.VecErgodic
import Verif.Lemmas.GaussMoments
import Verif.Lemmas.Rate

/-! Joint moments of two linear combinations of independent normal variables; their law of large numbers. -/

namespace MFA

universe u

open Classical Finset MeasureTheory ProbabilityTheory

noncomputable section

variable {R : ℕ}

/-- `|U|^q (log |U|)^n |V|^q' (log |V|)^n'` for `U = ∑ u r z r` and `V = ∑ v r z r`. -/
def pairTest (u v : Fin R → ℝ) (p : (ℝ × ℕ) × (ℝ × ℕ)) (z : Fin R → ℝ) : ℝ :=
  testF p.1.1 p.1.2 (∑ r, u r * z r) * testF p.2.1 p.2.2 (∑ r, v r * z r)

/-- Its expectation for independent standard normal `z r`. -/
def pairMoment (u v : Fin R → ℝ) (p : (ℝ × ℕ) × (ℝ × ℕ)) : ℝ := ∫ z, pairTest u v p z ∂stdGs R

theorem measurable_pairTest (u v : Fin R → ℝ) (p : (ℝ × ℕ) × (ℝ × ℕ)) : Measurable (pairTest u v p) := by
  unfold pairTest
  exact ((measurable_testF _ _).comp (by fun_prop)).mul ((measurable_testF _ _).comp (by fun_prop))

theorem pairTest_even (u v : Fin R → ℝ) (p : (ℝ × ℕ) × (ℝ × ℕ)) (z : Fin R → ℝ) : pairTest u v p (-z) = pairTest u v p z := by
  simp [pairTest, testF_even]

/-- A unit combination of independent standard normal variables is standard normal. -/
theorem unit_law {u : Fin R → ℝ} (hu : ∑ r, u r ^ 2 = 1) : (stdGs R).map (fun z => ∑ r, u r * z r) = stdG := by
  have hl : ∀ r : Fin R, (stdGs R).map (fun z => z r) = stdG := fun r => (measurePreserving_eval (fun _ : Fin R => stdG) r).map_eq
  have hc : ∀ r : Fin R, HasGaussianLaw (fun z : Fin R → ℝ => z r) (stdGs R) := fun r => by
    refine ⟨?_⟩
    rw [hl r]; infer_instance
  have hind : iIndepFun (fun (r : Fin R) (z : Fin R → ℝ) => z r) (stdGs R) :=
    iIndepFun_pi (μ := fun _ : Fin R => stdG) (X := fun _ x => x) fun _ => aemeasurable_id
  have hg := hind.hasGaussianLaw hc
  have hL : HasGaussianLaw (fun z : Fin R → ℝ => ∑ r, u r * z r) (stdGs R) := by
    have := hg.map_fun (∑ r, u r • ContinuousLinearMap.proj (R := ℝ) (φ := fun _ : Fin R => ℝ) r)
    have e : (fun z : Fin R → ℝ => ∑ r, u r * z r) = fun z => (∑ r, u r • ContinuousLinearMap.proj (R := ℝ) (φ := fun _ : Fin R => ℝ) r) fun r => z r := by
      funext z; simp
    rw [e]; exact this
  have hm : ∀ r : Fin R, ∫ z : Fin R → ℝ, z r ∂stdGs R = 0 := by
    intro r
    have := integral_map (μ := stdGs R) (φ := fun z => z r) (measurable_pi_apply r).aemeasurable (f := fun x : ℝ => x) (by fun_prop)
    rw [hl r] at this
    rw [← this]; exact integral_id_gaussianReal
  have hv : ∀ r : Fin R, Var[fun z : Fin R → ℝ => z r; stdGs R] = 1 := by
    intro r
    rw [← variance_id_map (measurable_pi_apply r).aemeasurable, hl r]
    simp
  have e := hL.map_eq_gaussianReal
  have hm' : ∫ z : Fin R → ℝ, ∑ r, u r * z r ∂stdGs R = 0 := by
    rw [integral_finsetSum _ fun r _ => (hc r).integrable.const_mul _]
    exact sum_eq_zero fun r _ => by rw [integral_const_mul, hm, mul_zero]
  have hv' : Var[fun z : Fin R → ℝ => ∑ r, u r * z r; stdGs R] = 1 := by
    have hfun : (fun z : Fin R → ℝ => ∑ r, u r * z r) = ∑ r, fun z : Fin R → ℝ => u r * z r := by funext z; simp
    rw [hfun, IndepFun.variance_sum (fun r _ => (hc r).memLp_two.const_mul _) (fun r _ s _ hrs => ?_)]
    · rw [← hu]
      exact sum_congr rfl fun r _ => by rw [variance_const_mul, hv r, mul_one]
    · exact (hind.indepFun hrs).comp (φ := fun x : ℝ => u r * x) (ψ := fun x : ℝ => u s * x) (by fun_prop) (by fun_prop)
  rw [hm', hv'] at e
  simpa using e

theorem integrable_unit {u : Fin R → ℝ} (hu : ∑ r, u r ^ 2 = 1) {f : ℝ → ℝ} (hf : Integrable f stdG) :
    Integrable (fun z => f (∑ r, u r * z r)) (stdGs R) := by
  rw [← unit_law hu] at hf
  exact hf.comp_measurable (by fun_prop)

theorem unit_ae {u : Fin R → ℝ} (hu : ∑ r, u r ^ 2 = 1) : ∀ᵐ z ∂stdGs R, ∑ r, u r * z r ≠ 0 := by
  have h0 : ∀ᵐ x ∂stdG, x ≠ 0 := by
    have : NullSingletonClass stdG := nullSingletonClass_gaussianReal one_ne_zero
    rw [ae_iff]; simp
  rw [← unit_law hu] at h0
  exact ae_of_ae_map (f := fun z : Fin R → ℝ => ∑ r, u r * z r) (p := fun x : ℝ => x ≠ 0) (Measurable.aemeasurable (by fun_prop)) h0

theorem pairTest_sq {u v : Fin R → ℝ} (hu : ∑ r, u r ^ 2 = 1) (hv : ∑ r, v r ^ 2 = 1) {p : (ℝ × ℕ) × (ℝ × ℕ)} (h1 : -(1 / 4) < p.1.1)
    (h2 : -(1 / 4) < p.2.1) : Integrable (fun z => pairTest u v p z ^ 2) (stdGs R) := by
  have key : ∀ {w : Fin R → ℝ}, ∑ r, w r ^ 2 = 1 → ∀ {q : ℝ} (n : ℕ), -(1 / 4) < q →
      Integrable (fun z => testF q n (∑ r, w r * z r) ^ 4) (stdGs R) := by
    intro w hw q n hq
    refine integrable_unit hw (f := fun x => testF q n x ^ 4) ?_
    refine (integrable_rpow_log (s := 4 * q) (by linarith) (4 * n)).congr (Filter.Eventually.of_forall fun x => ?_)
    simp only [testF, mul_pow, ← pow_mul]
    rw [mul_comm n 4, mul_comm 4 q, Real.rpow_mul (abs_nonneg x)]
    norm_cast
  refine ((key hu p.1.2 h1).add (key hv p.2.2 h2)).mono' ((measurable_pairTest u v p).pow_const 2).aestronglyMeasurable
    (Filter.Eventually.of_forall fun z => ?_)
  show ‖pairTest u v p z ^ 2‖ ≤ testF p.1.1 p.1.2 (∑ r, u r * z r) ^ 4 + testF p.2.1 p.2.2 (∑ r, v r * z r) ^ 4
  rw [Real.norm_eq_abs, abs_of_nonneg (sq_nonneg _), pairTest]
  nlinarith [sq_nonneg (testF p.1.1 p.1.2 (∑ r, u r * z r) ^ 2 - testF p.2.1 p.2.2 (∑ r, v r * z r) ^ 2),
    sq_nonneg (testF p.1.1 p.1.2 (∑ r, u r * z r) ^ 2), sq_nonneg (testF p.2.1 p.2.2 (∑ r, v r * z r) ^ 2)]

theorem pairMoment_pos {u v : Fin R → ℝ} (hu : ∑ r, u r ^ 2 = 1) (hv : ∑ r, v r ^ 2 = 1) {e1 e2 : ℝ} (h1 : -(1 / 4) < e1)
    (h2 : -(1 / 4) < e2) : 0 < pairMoment u v ((e1, 0), (e2, 0)) := by
  have hI : Integrable (pairTest u v ((e1, 0), (e2, 0))) (stdGs R) := by
    have := (memLp_two_iff_integrable_sq (measurable_pairTest u v _).aestronglyMeasurable).2 (pairTest_sq hu hv (p := ((e1, 0), (e2, 0))) h1 h2)
    exact this.integrable one_le_two
  unfold pairMoment
  rw [integral_pos_iff_support_of_nonneg (fun z => by simp only [pairTest, testF, pow_zero, mul_one]; positivity) hI]
  have : stdGs R (Function.support (pairTest u v ((e1, 0), (e2, 0)))) = stdGs R Set.univ := by
    apply measure_congr
    filter_upwards [unit_ae hu, unit_ae hv] with z hz hz'
    apply propext
    have : pairTest u v ((e1, 0), (e2, 0)) z ≠ 0 := by
      simp only [pairTest, testF, pow_zero, mul_one]
      exact (mul_pos (Real.rpow_pos_of_pos (abs_pos.2 hz) _) (Real.rpow_pos_of_pos (abs_pos.2 hz') _)).ne'
    exact ⟨fun _ => trivial, fun _ => this⟩
  rw [this]
  simp

variable {wt : Wavelet}

/-- The joint law of large numbers for pairs of combinations, with a rate: except with probability at most `C / N`, at all scales up to `J`, the
empirical joint moments are within `η` of their expectations. -/
theorem pair_rate {M : ℕ} (hM : VanishingMoments wt.dec_hi M) (hM1 : 1 ≤ M) (hwt : wt.Valid) {G : ℤ → ℝ}
    {h β : ℝ} (hK : ScalingKernel wt G h β) (g nm : ℝ) {R : ℕ} {u v : Fin R → ℝ} (hu : ∑ r, u r ^ 2 = 1) (hv : ∑ r, v r ^ 2 = 1) :
    ∃ (τ : ℕ → ℝ) (V B : ℝ), 0 < V ∧ 0 ≤ B ∧
    (∀ j : ℕ, 1 ≤ j → 0 < τ j ∧ |Real.logb 2 (τ j) - (Real.logb 2 V + j * coefExponent h g nm)| ≤ B * (2:ℝ) ^ (-(2 * β * j))) ∧
    ∀ (F : List ((ℝ × ℕ) × (ℝ × ℕ))), (∀ p ∈ F, -(1 / 4) < p.1.1 ∧ -(1 / 4) < p.2.1) → ∀ (J : ℕ) (η : ℝ), 0 < η → ∃ C : ℝ, 0 ≤ C ∧
    ∀ {Ω : Type u} [MeasurableSpace Ω] {μ : Measure Ω} {c : ℝ} {N : ℕ} {x : Ω → List (Fin R → ℝ)} {w : Ω → WT R}, 0 < c →
      IncrementAnalysis μ wt G c g nm N x w → 2 ^ J * (4 * wt.dec_hi.length + 2) ≤ N → (∀ ω, J ≤ (w ω).wt_coefs.values.length) →
      μ {ω | ¬ ∀ j : ℕ, 1 ≤ j → j ≤ J → ∀ p ∈ F, |(∑ k ∈ interior N wt.dec_hi.length j,
        pairTest u v p fun r => (w ω).wt_coefs.number j k r / √(c * τ j)) / (interior N wt.dec_hi.length j).card - pairMoment u v p| < η} ≤
        ENNReal.ofReal (C / N) := by
  have hR : R ≠ 0 := by rintro rfl; simp at hu
  obtain ⟨τ, V, B, hV, hB, hvar, hlln⟩ := vec_llnG.{u} hM hM1 hwt hK g nm R hR
  refine ⟨τ, V, B, hV, hB, hvar, ?_⟩
  intro F hF J η hη
  have hex : ∀ (j : ℕ) (p : (ℝ × ℕ) × (ℝ × ℕ)), ∃ D, 0 ≤ D ∧ (1 ≤ j → p ∈ F → ∀ {Ω : Type u} [MeasurableSpace Ω] {μ : Measure Ω} {c : ℝ} {N : ℕ}
      {x : Ω → List (Fin R → ℝ)} {w : Ω → WT R}, 0 < c → IncrementAnalysis μ wt G c g nm N x w → ∀ {ω₀ : Ω},
      j ≤ (w ω₀).wt_coefs.values.length → μ {ω | η ≤ |(∑ k ∈ interior N wt.dec_hi.length j,
        pairTest u v p fun r => (w ω).wt_coefs.number j k r / √(c * τ j)) / (interior N wt.dec_hi.length j).card - pairMoment u v p|} ≤
        ENNReal.ofReal (D / (interior N wt.dec_hi.length j).card / η ^ 2)) := by
    intro j p
    by_cases hjp : 1 ≤ j ∧ p ∈ F
    · obtain ⟨D, hD, h⟩ := hlln j (measurable_pairTest u v p) (pairTest_even _ _ _) (pairTest_sq hu hv (hF p hjp.2).1 (hF p hjp.2).2) hjp.1
      refine ⟨D, hD, fun _ _ => ?_⟩
      intro Ω _ μ c N x w hc hw ω₀ hl
      have hp := hw.prob
      obtain ⟨a3, a4⟩ := h hc hw hl
      exact chebyshev a3 a4 hη
    · exact ⟨0, le_rfl, fun a b => absurd ⟨a, b⟩ hjp⟩
  choose D hD0 hD using hex
  have hS : 0 ≤ ∑ j ∈ Icc 1 J, ∑ p ∈ F.toFinset, D j p := sum_nonneg fun j _ => sum_nonneg fun p _ => hD0 j p
  refine ⟨(∑ j ∈ Icc 1 J, ∑ p ∈ F.toFinset, D j p) * 2 ^ (J + 1) / η ^ 2, by positivity, ?_⟩
  intro Ω _ μ c N x w hc hw hN hJ
  have hp := hw.prob
  obtain ⟨ω₀⟩ : Nonempty Ω := nonempty_of_isProbabilityMeasure μ
  let bad1 : ℕ → (ℝ × ℕ) × (ℝ × ℕ) → Set Ω := fun j p => {ω | η ≤ |(∑ k ∈ interior N wt.dec_hi.length j,
    pairTest u v p fun r => (w ω).wt_coefs.number j k r / √(c * τ j)) / (interior N wt.dec_hi.length j).card - pairMoment u v p|}
  have hsub : {ω | ¬ ∀ j : ℕ, 1 ≤ j → j ≤ J → ∀ p ∈ F, |(∑ k ∈ interior N wt.dec_hi.length j,
        pairTest u v p fun r => (w ω).wt_coefs.number j k r / √(c * τ j)) / (interior N wt.dec_hi.length j).card - pairMoment u v p| < η} ⊆
      ⋃ j ∈ Icc 1 J, ⋃ p ∈ F.toFinset, bad1 j p := by
    intro ω hω
    by_contra hn
    apply hω
    intro j hj1 hjJ p hp'
    by_contra hge
    push Not at hge
    exact hn (Set.mem_biUnion (mem_Icc.2 ⟨hj1, hjJ⟩) (Set.mem_biUnion (List.mem_toFinset.2 hp') hge))
  refine (measure_mono hsub).trans ?_
  have hN0 : (0:ℝ) < N := by
    have : 0 < 2 ^ J * (4 * wt.dec_hi.length + 2) := by positivity
    exact_mod_cast this.trans_le hN
  have hn0 : (0:ℝ) < (N : ℝ) / 2 ^ (J + 1) := by positivity
  calc μ (⋃ j ∈ Icc 1 J, ⋃ p ∈ F.toFinset, bad1 j p)
      ≤ ∑ j ∈ Icc 1 J, ∑ p ∈ F.toFinset, μ (bad1 j p) :=
        (measure_biUnion_finset_le _ _).trans (sum_le_sum fun j _ => measure_biUnion_finset_le _ _)
    _ ≤ ∑ j ∈ Icc 1 J, ∑ p ∈ F.toFinset, ENNReal.ofReal (D j p / ((N : ℝ) / 2 ^ (J + 1)) / η ^ 2) := by
        refine sum_le_sum fun j hj => sum_le_sum fun p hp' => ?_
        refine (hD j p (mem_Icc.1 hj).1 (List.mem_toFinset.1 hp') hc hw ((mem_Icc.1 hj).2.trans (hJ ω₀))).trans ?_
        refine ENNReal.ofReal_le_ofReal (div_le_div_of_nonneg_right ?_ (sq_nonneg _))
        exact div_le_div_of_nonneg_left (hD0 j p) hn0 (interior_card_half (mem_Icc.1 hj).1 (mem_Icc.1 hj).2 hN).1
    _ = ENNReal.ofReal (∑ j ∈ Icc 1 J, ∑ p ∈ F.toFinset, D j p / ((N : ℝ) / 2 ^ (J + 1)) / η ^ 2) := by
        have hnn : ∀ j p, 0 ≤ D j p / ((N : ℝ) / 2 ^ (J + 1)) / η ^ 2 := fun j p => by have := hD0 j p; positivity
        rw [ENNReal.ofReal_sum_of_nonneg fun j _ => sum_nonneg fun p _ => hnn j p]
        exact sum_congr rfl fun j _ => (ENNReal.ofReal_sum_of_nonneg fun p _ => hnn j p).symm
    _ = ENNReal.ofReal ((∑ j ∈ Icc 1 J, ∑ p ∈ F.toFinset, D j p) * 2 ^ (J + 1) / η ^ 2 / N) := by
        congr 1
        simp only [← sum_div]
        field_simp

end

end MFA
