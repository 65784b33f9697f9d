import Verif.Props.BiRate
import Verif.Props.GrowingNoise

/-!
# Property C143: on two recordings that go on, the bivariate estimates converge almost surely
-/

namespace MFA

universe u

open Classical Finset MeasureTheory ProbabilityTheory Filter Topology

noncomputable section

variable {wt : Wavelet}

/-- The strong law of large numbers for the joint moments of the coefficients of two combinations of the columns of a recording. -/
theorem pair_growing {M : ℕ} (hM : VanishingMoments wt.dec_hi M) (hM1 : 1 ≤ M) (hwt : wt.Valid) {G : ℤ → ℝ}
    {h β : ℝ} (hK : ScalingKernel wt G h β) (g nm : ℝ) {R : ℕ} {u v : Fin R → ℝ} (hu : ∑ r, u r ^ 2 = 1) (hv : ∑ r, v r ^ 2 = 1) :
    ∃ (τ : ℕ → ℝ) (V B : ℝ), 0 < V ∧ 0 ≤ B ∧
    (∀ j : ℕ, 1 ≤ j → 0 < τ j ∧ |Real.logb 2 (τ j) - (Real.logb 2 V + j * coefExponent h g nm)| ≤ B * (2:ℝ) ^ (-(2 * β * j))) ∧
    ∀ (F : List ((ℝ × ℕ) × (ℝ × ℕ))), (∀ p ∈ F, -(1 / 4) < p.1.1 ∧ -(1 / 4) < p.2.1) →
    ∀ {Ω : Type u} [MeasurableSpace Ω] {μ : Measure Ω} {x : Ω → ℕ → Fin R → ℝ} {c : ℝ} {w : ℕ → Ω → WT R} {J N₁ : ℕ}, 0 < c →
      (∀ N, N₁ ≤ N → IncrementAnalysis μ wt G c g nm N (fun ω => firstSamples (x ω) N) (w N)) → (∀ N, N₁ ≤ N → ∀ ω, J ≤ (w N ω).wt_coefs.values.length) →
      ∀ᵐ ω ∂μ, ∀ η : ℝ, 0 < η → ∀ᶠ N in atTop, ∀ j : ℕ, 1 ≤ j → j ≤ J → ∀ p ∈ F, |(∑ k ∈ interior N wt.dec_hi.length j,
        pairTest u v p fun r => (w N ω).wt_coefs.number j k r / √(c * τ j)) / (interior N wt.dec_hi.length j).card - pairMoment u v p| < η := by
  have hR : R ≠ 0 := by rintro rfl; simp at hu
  obtain ⟨τ, V, B, hV, hB, hvar, hlln⟩ := vec_llnG.{u} hM hM1 hwt hK g nm R hR
  refine ⟨τ, V, B, hV, hB, hvar, ?_⟩
  intro F hF Ω _ μ x c w J N₁ hc hw hJ
  have hp := (hw N₁ le_rfl).prob
  obtain ⟨ω₀⟩ : Nonempty Ω := nonempty_of_isProbabilityMeasure μ
  have one : ∀ j : ℕ, 1 ≤ j → j ≤ J → ∀ {f : (Fin R → ℝ) → ℝ}, Measurable f → (∀ x, f (-x) = f x) → Integrable (fun x => f x ^ 2) (stdGs R) → ∀ᵐ ω ∂μ,
        Tendsto (fun N => (∑ k ∈ interior N wt.dec_hi.length j, f fun r => (w N ω).wt_coefs.number j k r / √(c * τ j)) / (interior N wt.dec_hi.length j).card) atTop
          (𝓝 (∫ x, f x ∂stdGs R)) := by
    intro j hj1 hj2
    -- the coefficients do not depend on what comes later
    obtain ⟨v, hv⟩ : ∃ v : ℕ → Ω → Fin R → ℝ, v = fun (k : ℕ) ω r => (2:ℝ) ^ ((j : ℝ) * (1 / 2 - 1 / nm + g)) * idealDetail wt (fun t => x ω t.toNat r) j (k : ℤ) := ⟨_, rfl⟩
    have hnum : ∀ N, N₁ ≤ N → ∀ ω, ∀ k ∈ interior N wt.dec_hi.length j, ∀ r, (w N ω).wt_coefs.number j k r = v k ω r := by
      intro N hN ω k hk r
      obtain ⟨p, j1, j2, weighted, h0⟩ := (hw N hN).sampled
      obtain ⟨-, e1, e2⟩ := reported_linear hwt (h0 ω) ((hw N hN).reported hwt hj1 (hj2.trans (hJ N hN ω)) hk r)
      rw [e1, hv]
      show _ = (2:ℝ) ^ ((j : ℝ) * (1 / 2 - 1 / nm + g)) * idealDetail wt (fun t => x ω t.toNat r) j (k : ℤ)
      rw [e2, e2]
      congr 1
      refine sum_congr rfl fun t ht => ?_
      rw [Int.toNat_natCast, firstSamples_getD _ (mem_range.1 ht)]
    have hpos : ∀ {f : (Fin R → ℝ) → ℝ}, (∀ x, 0 ≤ f x) → Measurable f → (∀ x, f (-x) = f x) → Integrable (fun x => f x ^ 2) (stdGs R) → ∀ᵐ ω ∂μ,
        Tendsto (fun N => (∑ k ∈ interior N wt.dec_hi.length j, f fun r => v k ω r / √(c * τ j)) / (interior N wt.dec_hi.length j).card) atTop
          (𝓝 (∫ x, f x ∂stdGs R)) := by
      intro f hf0 hf1 hf2 hf3
      obtain ⟨D, hD, h⟩ := hlln j hf1 hf2 hf3 hj1
      refine strong_law (Z := fun k ω => f fun r => v k ω r / √(c * τ j)) (fun k ω => hf0 _) (interior_mono wt.dec_hi.length j) (by positivity : (0:ℝ) < 1 / 2 ^ j) hD
        (interior_card_tendsto wt.dec_hi.length hj1) ?_
      filter_upwards [eventually_ge_atTop N₁] with N hN
      obtain ⟨a3, a4⟩ := h hc (hw N hN) (hj2.trans (hJ N hN ω₀))
      have e : ∀ ω, (∑ k ∈ interior N wt.dec_hi.length j, f fun r => (w N ω).wt_coefs.number j k r / √(c * τ j)) =
          ∑ k ∈ interior N wt.dec_hi.length j, f fun r => v k ω r / √(c * τ j) := fun ω => sum_congr rfl fun k hk => by
        congr 1; funext r; rw [hnum N hN ω k hk r]
      simp only [e] at a3 a4
      exact ⟨a3, a4⟩
    intro f hf1 hf2 hf3
    have hm1 : Measurable fun x => max (f x) 0 := hf1.max measurable_const
    have hm2 : Measurable fun x => max (-f x) 0 := hf1.neg.max measurable_const
    have hi1 : Integrable (fun x => max (f x) 0 ^ 2) (stdGs R) := by
      refine hf3.mono (hm1.pow_const 2).aestronglyMeasurable (Eventually.of_forall fun x => ?_)
      simp only [Real.norm_eq_abs, abs_pow]
      refine pow_le_pow_left₀ (abs_nonneg _) ?_ 2
      rw [abs_of_nonneg (le_max_right _ _)]
      exact max_le (le_abs_self _) (abs_nonneg _)
    have hi2 : Integrable (fun x => max (-f x) 0 ^ 2) (stdGs R) := by
      refine hf3.mono (hm2.pow_const 2).aestronglyMeasurable (Eventually.of_forall fun x => ?_)
      simp only [Real.norm_eq_abs, abs_pow]
      refine pow_le_pow_left₀ (abs_nonneg _) ?_ 2
      rw [abs_of_nonneg (le_max_right _ _)]
      exact max_le (neg_le_abs _) (abs_nonneg _)
    have l1 := hpos (fun x => le_max_right _ _) hm1 (fun x => by rw [hf2]) hi1
    have l2 := hpos (fun x => le_max_right _ _) hm2 (fun x => by rw [hf2]) hi2
    have hspl : ∀ y, f y = max (f y) 0 - max (-f y) 0 := fun y => (max_zero_sub_max_neg_zero_eq_self (f y)).symm
    have hI1 : Integrable (fun x => max (f x) 0) (stdGs R) := ((memLp_two_iff_integrable_sq hm1.aestronglyMeasurable).2 hi1).integrable (by norm_num)
    have hI2 : Integrable (fun x => max (-f x) 0) (stdGs R) := ((memLp_two_iff_integrable_sq hm2.aestronglyMeasurable).2 hi2).integrable (by norm_num)
    have hint : ∫ x, f x ∂stdGs R = ∫ x, max (f x) 0 ∂stdGs R - ∫ x, max (-f x) 0 ∂stdGs R := by
      rw [← integral_sub hI1 hI2]
      exact integral_congr_ae (Eventually.of_forall hspl)
    filter_upwards [l1, l2] with ω h1 h2
    rw [hint]
    refine (h1.sub h2).congr' ?_
    filter_upwards [eventually_ge_atTop N₁] with N hN
    rw [← sub_div, ← sum_sub_distrib]
    congr 1
    refine sum_congr rfl fun k hk => ?_
    have : (fun r => (w N ω).wt_coefs.number j k r / √(c * τ j)) = fun r => v k ω r / √(c * τ j) := by
      funext r; rw [hnum N hN ω k hk r]
    rw [this]
    exact (hspl _).symm
  have hall : ∀ᵐ ω ∂μ, ∀ j ∈ Icc 1 J, ∀ p ∈ F.toFinset, Tendsto (fun N => (∑ k ∈ interior N wt.dec_hi.length j,
        pairTest u v p fun r => (w N ω).wt_coefs.number j k r / √(c * τ j)) / (interior N wt.dec_hi.length j).card) atTop (𝓝 (pairMoment u v p)) := by
    rw [Finset.eventually_all]
    intro j hj
    rw [Finset.eventually_all]
    intro p hp
    have := hF p (List.mem_toFinset.1 hp)
    exact one j (mem_Icc.1 hj).1 (mem_Icc.1 hj).2 (measurable_pairTest u v p) (pairTest_even _ _ _) (pairTest_sq hu hv this.1 this.2)
  filter_upwards [hall] with ω h3 η hη
  have h5 : ∀ᶠ N in atTop, ∀ j ∈ Icc 1 J, ∀ p ∈ F.toFinset, |(∑ k ∈ interior N wt.dec_hi.length j,
        pairTest u v p fun r => (w N ω).wt_coefs.number j k r / √(c * τ j)) / (interior N wt.dec_hi.length j).card - pairMoment u v p| < η := by
    rw [Finset.eventually_all]
    intro j hj
    rw [Finset.eventually_all]
    intro p hp
    have := (Metric.tendsto_nhds.1 (h3 j hj p hp)) η hη
    simpa [Real.dist_eq] using this
  filter_upwards [h5] with N h6 j h1 h2 p hp
  exact h6 j (mem_Icc.2 ⟨h1, h2⟩) p (List.mem_toFinset.2 hp)

/-- A combination of the columns of a recording. -/
def mixed {R : ℕ} (α : Fin R → ℝ) (x : ℕ → Fin R → ℝ) : ℕ → Fin 1 → ℝ := fun t _ => ∑ r, α r * x t r

theorem firstSamples_mixed {R : ℕ} (α : Fin R → ℝ) (x : ℕ → Fin R → ℝ) (N : ℕ) :
    firstSamples (mixed α x) N = mixture α (firstSamples x N) := by
  simp only [firstSamples, mixture, List.map_map]
  rfl

/-- The almost sure convergence, for any function `G` with a scaling exponent. -/
theorem bi_growing {M : ℕ} (hM : VanishingMoments wt.dec_hi M) (hM1 : 1 ≤ M) (hwt : wt.Valid) (hF : 4 ≤ wt.dec_hi.length) {G : ℤ → ℝ}
    {h b : ℝ} (hK : ScalingKernel wt G h b) {R : ℕ} {α β : Fin R → ℝ} (hα : α ≠ 0) (hβ : β ≠ 0) (q1 q2 : List ℝ) (n : ℕ)
    (hn1 : q1.Nodup) (hn2 : q2.Nodup) (hq1 : (0:ℝ) ∈ q1 ∧ (1:ℝ) ∈ q1 ∧ (2:ℝ) ∈ q1) (hq2 : (0:ℝ) ∈ q2 ∧ (1:ℝ) ∈ q2 ∧ (2:ℝ) ∈ q2)
    (hl1 : ∀ e ∈ q1, -(1 / 4) < e) (hl2 : ∀ e ∈ q2, -(1 / 4) < e) (hn : 2 ≤ n) (ε : ℝ) (hε : 0 < ε) :
    ∃ j₀ : ℕ, 1 ≤ j₀ ∧ ∀ j1 j2 : ℕ, j₀ ≤ j1 → j1 < j2 →
    ∀ {Ω : Type u} [MeasurableSpace Ω] {μ : Measure Ω} {x : Ω → ℕ → Fin R → ℝ} {A : ℕ → ℝ} {c : ℝ}, 0 < c →
      (∀ N, GaussianArray μ N (fun ω => firstSamples (x ω) N) (fun n m => A n + A m - c * G ((n : ℤ) - m))) → ∀ weighted : Bool,
      ∀ᵐ ω ∂μ, ∀ᶠ N in atTop, ∃ d l, bivariateAnalysisFull (asFloats (mixture α (firstSamples (x ω) N))) (asFloats (mixture β (firstSamples (x ω) N)))
          j1 (some (j2 : ℝ)) 1 0 weighted wt .inf (some (.ndarray q1)) (some (.ndarray q2)) n = .ok (d, l) ∧ BiMonofractalNear d q1 q2 n h ε := by
  have hR : R ≠ 0 := by rintro rfl; exact hα (Subsingleton.elim _ _)
  have ha := sum_sq_pos hα
  have hb := sum_sq_pos hβ
  obtain ⟨τ, V, B, hV, hB, hτ, hpl⟩ := pair_growing.{u} hM hM1 hwt hK 0 1 (unit_vector hα) (unit_vector hβ)
  obtain ⟨τ', V', B', -, -, hnz⟩ := growing_means.{u} hM hM1 hwt hK 0 1
  obtain ⟨ja, ja1, hja⟩ := estimates_growing.{u} hM hM1 hwt hK q1 n hq1.2.2 (fun e he => by linarith [hl1 e he]) ε hε
  obtain ⟨jb, jb1, hjb⟩ := estimates_growing.{u} hM hM1 hwt hK q2 n hq2.2.2 (fun e he => by linarith [hl2 e he]) ε hε
  obtain ⟨jc, hcore⟩ := bi_recovered_at.{u} hwt hF hK hB hτ hα hβ q1 q2 n hn1 hn2 hq1 hq2 hl1 hl2 hn ε hε
  refine ⟨max ja (max jb jc), ja1.trans (le_max_left _ _), ?_⟩
  intro j1 j2 hj01 hj12
  have hj1a : ja ≤ j1 := (le_max_left _ _).trans hj01
  have hj1b : jb ≤ j1 := ((le_max_left _ _).trans (le_max_right _ _)).trans hj01
  have hj1c : jc ≤ j1 := ((le_max_right _ _).trans (le_max_right _ _)).trans hj01
  have hj1 : 1 ≤ j1 := ja1.trans hj1a
  obtain ⟨η, hη, F, hFe, hcore⟩ := hcore j1 j2 hj1 hj1c hj12
  intro Ω _ μ x A c hc hG weighted
  obtain ⟨N₀, hN₀⟩ : ∃ N₀, N₀ = 2 ^ (j2 + 1) * (wt.dec_hi.length + 1) := ⟨_, rfl⟩
  have hN₀1 : 1 ≤ N₀ := by rw [hN₀]; exact Nat.one_le_iff_ne_zero.2 (by positivity)
  have hlen : ∀ N ω, (firstSamples (x ω) N).length = N := fun N ω => (hG N).length ω
  -- the transforms
  have hex : ∀ {S : ℕ}, S ≠ 0 → ∀ (y : List (Fin S → ℝ)) (N : ℕ), y.length = N → ∃ w : WT S, N₀ ≤ N →
      waveletAnalysis (asFloats y) .inf wt j1 (some (j2 : ℝ)) 0 1 weighted = .ok w := by
    intro S hS y N hy
    by_cases hN : N₀ ≤ N
    · obtain ⟨w, hw⟩ := C05_total (asFloats y) .inf (Or.inr rfl) wt j1 (some (j2 : ℝ)) 0 1 weighted hS (by
        intro h0; have := congrArg List.length h0; simp [asFloats, hy] at this; omega) one_ne_zero
      exact ⟨w, fun _ => hw⟩
    · have hne' : asFloats [fun _ : Fin S => (0:ℝ)] ≠ [] := by simp [asFloats]
      obtain ⟨w, -⟩ := C05_total (asFloats [fun _ : Fin S => (0:ℝ)]) .inf (Or.inr rfl) wt j1 (some (j2 : ℝ)) 0 1 weighted hS hne' one_ne_zero
      exact ⟨w, fun h => absurd h hN⟩
  have hml : ∀ (γ : Fin R → ℝ) N ω, (mixture γ (firstSamples (x ω) N)).length = N := fun γ N ω => by rw [mixture_length, hlen]
  choose w hw using fun N ω => hex hR (firstSamples (x ω) N) N (hlen N ω)
  choose W hW using fun (N : ℕ) (γ : Fin R → ℝ) ω => hex one_ne_zero (mixture γ (firstSamples (x ω) N)) N (hml γ N ω)
  have hGm : ∀ γ N, GaussianArray μ N (fun ω => firstSamples (mixed γ (x ω)) N)
      (fun n m => (∑ r, γ r ^ 2) * A n + (∑ r, γ r ^ 2) * A m - (∑ r, γ r ^ 2) * c * G ((n : ℤ) - m)) := by
    intro γ N
    have := mixture_gaussian (hG N) γ
    have e : (fun n m : ℕ => (∑ r, γ r ^ 2) * (A n + A m - c * G ((n : ℤ) - m))) =
        fun n m : ℕ => (∑ r, γ r ^ 2) * A n + (∑ r, γ r ^ 2) * A m - (∑ r, γ r ^ 2) * c * G ((n : ℤ) - m) := by
      funext n m; ring
    rw [e] at this
    simpa only [firstSamples_mixed] using this
  have hP : ∀ γ N, N₀ ≤ N → IncrementAnalysis μ wt G ((∑ r, γ r ^ 2) * c) 0 1 N (fun ω => firstSamples (mixed γ (x ω)) N) (W N γ) := fun γ N hN =>
    ⟨⟨fun n => (∑ r, γ r ^ 2) * A n, hGm γ N⟩, .inf, j1, some (j2 : ℝ), weighted, fun ω => by rw [firstSamples_mixed]; exact hW N γ ω hN⟩
  have hPx : ∀ N, N₀ ≤ N → IncrementAnalysis μ wt G c 0 1 N (fun ω => firstSamples (x ω) N) (w N) := fun N hN =>
    ⟨⟨A, hG N⟩, .inf, j1, some (j2 : ℝ), weighted, fun ω => hw N ω hN⟩
  have hlong : ∀ γ N, N₀ ≤ N → ∀ ω, j2 ≤ (W N γ ω).wt_coefs.values.length := by
    intro γ N hN ω
    have h0 := hW N γ ω hN
    rw [asFloats_sampled (hml γ N ω)] at h0
    exact (long_enough one_ne_zero hwt (Or.inr hF) (by omega) (hN₀ ▸ hN) h0).2
  have hlongx : ∀ N, N₀ ≤ N → ∀ ω, j2 ≤ (w N ω).wt_coefs.values.length := by
    intro N hN ω
    have h0 := hw N ω hN
    rw [asFloats_sampled (hlen N ω)] at h0
    exact (long_enough hR hwt (Or.inr hF) (by omega) (hN₀ ▸ hN) h0).2
  have z1 := (hnz (0 : Fin 1) (mul_pos ha hc) (fun N hN => hP α N hN) (J := j2) (fun N hN ω => hlong α N hN ω)).2.1
  have z2 := (hnz (0 : Fin 1) (mul_pos hb hc) (fun N hN => hP β N hN) (J := j2) (fun N hN ω => hlong β N hN ω)).2.1
  have m1 := hja j1 j2 hj1a hj12 (x := fun ω => mixed α (x ω)) (mul_pos ha hc) (hGm α) .inf weighted 0 (Or.inr ⟨rfl, hF⟩)
  have m2 := hjb j1 j2 hj1b hj12 (x := fun ω => mixed β (x ω)) (mul_pos hb hc) (hGm β) .inf weighted 0 (Or.inr ⟨rfl, hF⟩)
  have hg3 := hpl F hFe hc hPx (J := j2) hlongx
  filter_upwards [z1, z2, m1, m2, hg3] with ω z1 z2 m1 m2 hg3
  filter_upwards [m1, m2, hg3 η hη, eventually_ge_atTop N₀] with N m1 m2 hg3 hN
  rw [firstSamples_mixed] at m1 m2
  exact hcore hc (hN₀ ▸ hN) (hG N) weighted (fun ω => hw N ω hN) (fun γ ω => hW N γ ω hN) ω m1 m2 hg3 (fun j a1 a2 k hk => z1 j a1 a2 N hN k hk)
    (fun j a1 a2 k hk => z2 j a1 a2 N hN k hk)

/-- **C143, power law signals**: two recordings that go on for ever, combinations (`α`, `β`) of independent Gaussian recordings with power law
increments.  Almost surely there is a time from which on every analysis by `bivariate_analysis_full` of all the samples recorded so far returns and gives all
the exponents `zeta(e1, e2)` and log-cumulants within `ε`. -/
theorem C143_power_law {M : ℕ} (hM : VanishingMoments wt.dec_hi M) (hM1 : 1 ≤ M) (hwt : wt.Valid) (ho : OrthonormalBank wt)
    (hF : 4 ≤ wt.dec_hi.length) {H : ℝ} (h0 : 0 < H) (h1 : H < 1) (hH : 4 * H - 4 * M < -1) {R : ℕ} {α β : Fin R → ℝ} (hα : α ≠ 0)
    (hβ : β ≠ 0) (q1 q2 : List ℝ) (n : ℕ)
    (hn1 : q1.Nodup) (hn2 : q2.Nodup) (hq1 : (0:ℝ) ∈ q1 ∧ (1:ℝ) ∈ q1 ∧ (2:ℝ) ∈ q1) (hq2 : (0:ℝ) ∈ q2 ∧ (1:ℝ) ∈ q2 ∧ (2:ℝ) ∈ q2)
    (hl1 : ∀ e ∈ q1, -(1 / 4) < e) (hl2 : ∀ e ∈ q2, -(1 / 4) < e) (hn : 2 ≤ n) (ε : ℝ) (hε : 0 < ε) :
    ∃ j₀ : ℕ, 1 ≤ j₀ ∧ ∀ j1 j2 : ℕ, j₀ ≤ j1 → j1 < j2 →
    ∀ {Ω : Type u} [MeasurableSpace Ω] {μ : Measure Ω} {x : Ω → ℕ → Fin R → ℝ} {A : ℕ → ℝ} {c : ℝ}, 0 < c →
      (∀ N, GaussianArray μ N (fun ω => firstSamples (x ω) N) (fun n m => A n + A m - c * |(n : ℝ) - m| ^ (2 * H))) → ∀ weighted : Bool,
      ∀ᵐ ω ∂μ, ∀ᶠ N in atTop, ∃ d l, bivariateAnalysisFull (asFloats (mixture α (firstSamples (x ω) N))) (asFloats (mixture β (firstSamples (x ω) N)))
          j1 (some (j2 : ℝ)) 1 0 weighted wt .inf (some (.ndarray q1)) (some (.ndarray q2)) n = .ok (d, l) ∧ BiMonofractalNear d q1 q2 n H ε := by
  obtain ⟨j₀, hj₀, h⟩ := bi_growing.{u} hM hM1 hwt hF (powerLaw_kernel hM hM1 hwt ho h0 h1 hH) hα hβ q1 q2 n hn1 hn2 hq1 hq2 hl1 hl2 hn ε hε
  refine ⟨j₀, hj₀, ?_⟩
  intro j1 j2 h3 h4 Ω _ μ x A c hc hG
  have e : (fun n m : ℕ => A n + A m - c * |(((n : ℤ) - m : ℤ) : ℝ)| ^ (2 * H)) = fun n m : ℕ => A n + A m - c * |(n : ℝ) - m| ^ (2 * H) := by
    funext n m; push_cast; rfl
  refine h j1 j2 h3 h4 hc (A := A) (fun N => ?_)
  rw [e]; exact hG N

/-- **C143, noise**: the same for combinations of independent recordings of fractional Gaussian noise; the exponent is `H - 1`. -/
theorem C143_noise {M : ℕ} (hM : VanishingMoments wt.dec_hi M) (hM1 : 1 ≤ M) (hwt : wt.Valid) (ho : OrthonormalBank wt)
    (hF : 4 ≤ wt.dec_hi.length) {H : ℝ} (h0 : 0 < H) (h1 : H < 1) (hr : 1 / 2 ≤ H ∨ RegularWavelet wt) {R : ℕ} {α β : Fin R → ℝ} (hα : α ≠ 0)
    (hβ : β ≠ 0) (q1 q2 : List ℝ) (n : ℕ)
    (hn1 : q1.Nodup) (hn2 : q2.Nodup) (hq1 : (0:ℝ) ∈ q1 ∧ (1:ℝ) ∈ q1 ∧ (2:ℝ) ∈ q1) (hq2 : (0:ℝ) ∈ q2 ∧ (1:ℝ) ∈ q2 ∧ (2:ℝ) ∈ q2)
    (hl1 : ∀ e ∈ q1, -(1 / 4) < e) (hl2 : ∀ e ∈ q2, -(1 / 4) < e) (hn : 2 ≤ n) (ε : ℝ) (hε : 0 < ε) :
    ∃ j₀ : ℕ, 1 ≤ j₀ ∧ ∀ j1 j2 : ℕ, j₀ ≤ j1 → j1 < j2 →
    ∀ {Ω : Type u} [MeasurableSpace Ω] {μ : Measure Ω} {x : Ω → ℕ → Fin R → ℝ} {sigma d : ℝ}, sigma ≠ 0 → 0 < d →
      (∀ N, GaussianArray μ N (fun ω => firstSamples (x ω) N) (fun n m => fgnCovariance H sigma d (n * d) (m * d))) → ∀ weighted : Bool,
      ∀ᵐ ω ∂μ, ∀ᶠ N in atTop, ∃ d l, bivariateAnalysisFull (asFloats (mixture α (firstSamples (x ω) N))) (asFloats (mixture β (firstSamples (x ω) N)))
          j1 (some (j2 : ℝ)) 1 0 weighted wt .inf (some (.ndarray q1)) (some (.ndarray q2)) n = .ok (d, l) ∧ BiMonofractalNear d q1 q2 n (H - 1) ε := by
  obtain ⟨b, hK⟩ := noise_kernel hM hM1 hwt ho h0 h1 hr
  obtain ⟨j₀, hj₀, h⟩ := bi_growing.{u} hM hM1 hwt hF hK hα hβ q1 q2 n hn1 hn2 hq1 hq2 hl1 hl2 hn ε hε
  refine ⟨j₀, hj₀, ?_⟩
  intro j1 j2 h3 h4 Ω _ μ x sigma d hs hd hG
  have e : (fun n m : ℕ => fgnCovariance H sigma d (n * d) (m * d)) =
      fun n m : ℕ => (0:ℝ) + 0 - sigma ^ 2 * d ^ (2 * H) * -noiseKernel (2 * H) ((n : ℤ) - m) := by
    funext n m
    rw [fgn_noiseKernel H sigma hd.le]
    ring
  refine h j1 j2 h3 h4 (A := fun _ => 0) (c := sigma ^ 2 * d ^ (2 * H)) (by positivity) (fun N => ?_)
  rw [← e]; exact hG N

/-! The hypotheses are met: `db2`, two columns of fractional Brownian motion (they exist: `C135_exists_fbm`), every correlation `ρ` of the two recordings. -/
example (H : ℝ) (h0 : 0 < H) (h1 : H < 1) (ρ : ℝ) (ε : ℝ) (hε : 0 < ε) : ∃ j1 : ℕ, 1 ≤ j1 ∧ ∃ (Ω : Type) (_ : MeasurableSpace Ω) (μ : Measure Ω)
    (x : Ω → ℕ → Fin 2 → ℝ), (∀ N, GaussianArray μ N (fun ω => firstSamples (x ω) N) (fun n m => fbmCovariance H 1 ((n + 1 : ℕ) * 1) ((m + 1 : ℕ) * 1))) ∧
    ∀ᵐ ω ∂μ, ∀ᶠ N in atTop, ∃ d l, bivariateAnalysisFull (asFloats (mixture ![1, 0] (firstSamples (x ω) N)))
      (asFloats (mixture ![ρ, √(1 - ρ ^ 2)] (firstSamples (x ω) N))) j1 (some ((j1 + 3 : ℕ) : ℝ)) 1 0 true db2 .inf (some (.ndarray [0, 1, 2]))
      (some (.ndarray [0, 1, 2, -1 / 5])) 3 = .ok (d, l) ∧ BiMonofractalNear d [0, 1, 2] [0, 1, 2, -1 / 5] 3 H ε := by
  obtain ⟨hv, ho, hm⟩ := db2_orthonormal
  have hβ : (![ρ, √(1 - ρ ^ 2)] : Fin 2 → ℝ) ≠ 0 := by
    intro h
    have a1 := congrFun h 0
    have a2 := congrFun h 1
    simp only [Matrix.cons_val_zero, Matrix.cons_val_one, Pi.zero_apply] at a1 a2
    rw [a1] at a2
    norm_num at a2
  have hα : (![1, 0] : Fin 2 → ℝ) ≠ 0 := fun h => by have := congrFun h 0; simp at this
  have hl1 : ∀ e ∈ ([0, 1, 2] : List ℝ), -(1 / 4) < e := by
    intro e he; simp only [List.mem_cons, List.not_mem_nil, or_false] at he; rcases he with rfl | rfl | rfl <;> norm_num
  have hl2 : ∀ e ∈ ([0, 1, 2, -1 / 5] : List ℝ), -(1 / 4) < e := by
    intro e he; simp only [List.mem_cons, List.not_mem_nil, or_false] at he; rcases he with rfl | rfl | rfl | rfl <;> norm_num
  obtain ⟨a, ha, h⟩ := C143_power_law hm (by norm_num) hv ho (by simp [db2]) h0 h1 (by push_cast; linarith) hα hβ [0, 1, 2] [0, 1, 2, -1 / 5] 3
    (by norm_num) (by norm_num) (by norm_num) (by norm_num) hl1 hl2 (by norm_num) ε hε
  obtain ⟨Ω, m, μ, x, hx, -⟩ := C135_exists_fbm.{0} h0 h1 1 one_pos 2
  refine ⟨a, ha, Ω, m, μ, x, hx, ?_⟩
  rw [fbm_powerLaw H 1 zero_le_one] at hx
  exact h a (a + 3) le_rfl (by omega) (by simp) hx true

end

end MFA
