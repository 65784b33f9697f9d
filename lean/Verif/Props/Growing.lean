import Verif.Props.Rate
import Verif.Spec.Recording

/-!
# Property C135: on a recording that goes on, the estimates converge almost surely
-/

namespace MFA

universe u

open Classical Finset MeasureTheory ProbabilityTheory Filter Topology

noncomputable section

variable {wt : Wavelet}

theorem firstSamples_getD {R : ℕ} (x : ℕ → Fin R → ℝ) {N n : ℕ} (h : n < N) : (firstSamples x N).getD n (fun _ => 0) = x n := by
  unfold firstSamples
  rw [List.getD_eq_getElem?_getD, List.getElem?_map, List.getElem?_range h]
  rfl

theorem interior_mono (F j : ℕ) : Monotone fun N => interior N F j := by
  intro N N' h k hk
  simp only [interior, mem_filter, mem_range] at hk ⊢
  exact ⟨hk.1.trans_le (Nat.div_le_div_right h), hk.2.1, hk.2.2.trans (Nat.div_le_div_right h)⟩

theorem interior_card_tendsto (F : ℕ) {j : ℕ} (hj : 1 ≤ j) : Tendsto (fun N => ((interior N F j).card : ℝ) / N) atTop (𝓝 (1 / 2 ^ j)) := by
  have hb : Tendsto (fun N : ℕ => (2 * (F : ℝ) + 1) / N) atTop (𝓝 0) := tendsto_const_div_atTop_nhds_zero_nat _
  rw [tendsto_iff_dist_tendsto_zero]
  refine squeeze_zero' (Eventually.of_forall fun _ => dist_nonneg) ?_ hb
  filter_upwards [eventually_gt_atTop 0] with N hN
  have hNr : (0:ℝ) < N := by exact_mod_cast hN
  have h2 := interior_card_ge N F j hj
  have h3 : (interior N F j).card ≤ N / 2 ^ j := by
    refine (card_filter_le _ _).trans ?_
    rw [card_range]
  obtain ⟨K, hK⟩ : ∃ K, K = N / 2 ^ j := ⟨_, rfl⟩
  rw [← hK] at h2 h3
  have h4 : N < 2 ^ j * (K + 1) := by
    rw [hK]; exact Nat.lt_mul_div_succ N (by positivity)
  have h5 : 2 ^ j * K ≤ N := by rw [hK]; exact Nat.mul_div_le N _
  have h4' : (N : ℝ) < 2 ^ j * ((K : ℝ) + 1) := by exact_mod_cast h4
  have h5' : (2:ℝ) ^ j * K ≤ N := by exact_mod_cast h5
  have h6 : (K : ℝ) ≤ (interior N F j).card + 2 * F := by exact_mod_cast (by omega : K ≤ (interior N F j).card + 2 * F)
  have h7 : ((interior N F j).card : ℝ) ≤ K := by exact_mod_cast h3
  have hp : (0:ℝ) < 2 ^ j := by positivity
  have h8 : (N : ℝ) / 2 ^ j < K + 1 := by rw [div_lt_iff₀ hp]; linarith
  have h9 : (K : ℝ) ≤ (N : ℝ) / 2 ^ j := by rw [le_div_iff₀ hp]; linarith
  rw [Real.dist_eq, show ((interior N F j).card : ℝ) / N - 1 / 2 ^ j = (((interior N F j).card : ℝ) - (N : ℝ) / 2 ^ j) / N by field_simp, abs_div, abs_of_pos hNr]
  refine div_le_div_of_nonneg_right ?_ hNr.le
  rw [abs_le]
  constructor <;> linarith [show (0:ℝ) ≤ F by positivity]

/-- The first samples of a recording, analysed: the law of large numbers holds almost surely, at every scale. -/
theorem growing_means {M : ℕ} (hM : VanishingMoments wt.dec_hi M) (hM1 : 1 ≤ M) (hwt : wt.Valid) {G : ℤ → ℝ}
    {h' β : ℝ} (hK : ScalingKernel wt G h' β) (g nm : ℝ) : ∃ (τ : ℕ → ℝ) (V B : ℝ), 0 < V ∧ 0 ≤ B ∧
    ∀ {Ω : Type u} [MeasurableSpace Ω] {μ : Measure Ω} {R : ℕ} {x : Ω → ℕ → Fin R → ℝ} {c : ℝ} {w : ℕ → Ω → WT R} {J N₁ : ℕ} (r : Fin R), 0 < c →
      (∀ N, N₁ ≤ N → IncrementAnalysis μ wt G c g nm N (fun ω => firstSamples (x ω) N) (w N)) → (∀ N, N₁ ≤ N → ∀ ω, J ≤ (w N ω).wt_coefs.values.length) →
      (∀ j, 1 ≤ j → j ≤ J → 0 < τ j ∧ |Real.logb 2 (τ j) - (Real.logb 2 V + j * coefExponent h' g nm)| ≤ B * (2:ℝ) ^ (-(2 * β * j))) ∧
      (∀ᵐ ω ∂μ, ∀ j, 1 ≤ j → j ≤ J → ∀ N, N₁ ≤ N → ∀ k ∈ interior N wt.dec_hi.length j, (w N ω).wt_coefs.number j k r ≠ 0) ∧
      ∀ j, 1 ≤ j → j ≤ J → ∀ {f : ℝ → ℝ}, Measurable f → (∀ x, f (-x) = f x) → Integrable (fun x => f x ^ 2) stdG → ∀ᵐ ω ∂μ,
        Tendsto (fun N => (∑ k ∈ interior N wt.dec_hi.length j, f ((w N ω).wt_coefs.number j k r / √(c * τ j))) / (interior N wt.dec_hi.length j).card) atTop
          (𝓝 (∫ x, f x ∂stdG)) := by
  obtain ⟨τ, V, B, hV, hB, hvar, hlln⟩ := coefs_llnG.{u} hM hM1 hwt hK g nm
  refine ⟨τ, V, B, hV, hB, ?_⟩
  intro Ω _ μ R x c w J N₁ r hc hw hJ
  have hR : R ≠ 0 := fun h0 => by subst h0; exact r.elim0
  have hp := (hw N₁ le_rfl).prob
  obtain ⟨ω₀⟩ : Nonempty Ω := nonempty_of_isProbabilityMeasure μ
  refine ⟨fun j hj1 hj2 => ?_, ?_, ?_⟩
  · obtain ⟨a1, a2, -⟩ := hvar hc (hw N₁ le_rfl) hR hj1 (hj2.trans (hJ N₁ le_rfl ω₀))
    exact ⟨a1, a2⟩
  · rw [ae_all_iff]; intro j
    by_cases hj1 : 1 ≤ j
    swap
    · exact Eventually.of_forall fun ω h => absurd h hj1
    by_cases hj2 : j ≤ J
    swap
    · exact Eventually.of_forall fun ω _ h => absurd h hj2
    have : ∀ᵐ ω ∂μ, ∀ N, N₁ ≤ N → ∀ k ∈ interior N wt.dec_hi.length j, (w N ω).wt_coefs.number j k r ≠ 0 := by
      rw [ae_all_iff]; intro N
      by_cases hN : N₁ ≤ N
      swap
      · exact Eventually.of_forall fun ω h => absurd h hN
      have : ∀ᵐ ω ∂μ, ∀ k ∈ interior N wt.dec_hi.length j, (w N ω).wt_coefs.number j k r ≠ 0 := by
        rw [ae_all_iff]; intro k
        by_cases hk : k ∈ interior N wt.dec_hi.length j
        swap
        · exact Eventually.of_forall fun ω h => absurd h hk
        obtain ⟨-, -, a3⟩ := hvar hc (hw N hN) hR hj1 (hj2.trans (hJ N hN ω₀))
        have h0 := (a3 r k hk).2
        have : ∀ᵐ ω ∂μ, (w N ω).wt_coefs.number j k r ≠ 0 := by
          rw [ae_iff]; simpa using h0
        filter_upwards [this] with ω hω _ using hω
      filter_upwards [this] with ω hω _ using hω
    filter_upwards [this] with ω hω _ _ using hω
  -- the strong law
  intro j hj1 hj2
  -- the coefficients do not depend on what comes later
  obtain ⟨v, hv⟩ : ∃ v : ℕ → Ω → ℝ, v = fun (k : ℕ) ω => (2:ℝ) ^ ((j : ℝ) * (1 / 2 - 1 / nm + g)) * idealDetail wt (fun t => x ω t.toNat r) j (k : ℤ) := ⟨_, rfl⟩
  have hnum : ∀ N, N₁ ≤ N → ∀ ω, ∀ k ∈ interior N wt.dec_hi.length j, (w N ω).wt_coefs.number j k r = v k ω := by
    intro N hN ω k hk
    obtain ⟨p, j1, j2, weighted, h0⟩ := (hw N hN).sampled
    obtain ⟨-, e1, e2⟩ := reported_linear hwt (h0 ω) ((hw N hN).reported hwt hj1 (hj2.trans (hJ N hN ω)) hk r)
    rw [e1, hv]
    show _ = (2:ℝ) ^ ((j : ℝ) * (1 / 2 - 1 / nm + g)) * idealDetail wt (fun t => x ω t.toNat r) j (k : ℤ)
    rw [e2, e2]
    congr 1
    refine sum_congr rfl fun t ht => ?_
    rw [Int.toNat_natCast, firstSamples_getD _ (mem_range.1 ht)]
  have hpos : ∀ {f : ℝ → ℝ}, (∀ x, 0 ≤ f x) → Measurable f → (∀ x, f (-x) = f x) → Integrable (fun x => f x ^ 2) stdG → ∀ᵐ ω ∂μ,
      Tendsto (fun N => (∑ k ∈ interior N wt.dec_hi.length j, f (v k ω / √(c * τ j))) / (interior N wt.dec_hi.length j).card) atTop
        (𝓝 (∫ x, f x ∂stdG)) := by
    intro f hf0 hf1 hf2 hf3
    obtain ⟨D, hD, h⟩ := hlln j hf1 hf2 hf3 hj1
    refine strong_law (fun k ω => hf0 _) (interior_mono wt.dec_hi.length j) (by positivity : (0:ℝ) < 1 / 2 ^ j) hD
      (interior_card_tendsto wt.dec_hi.length hj1) ?_
    filter_upwards [eventually_ge_atTop N₁] with N hN
    obtain ⟨-, -, a3, a4⟩ := h hc (hw N hN) (hj2.trans (hJ N hN ω₀)) r
    have e : ∀ ω, ∑ k ∈ interior N wt.dec_hi.length j, f ((w N ω).wt_coefs.number j k r / √(c * τ j)) =
        ∑ k ∈ interior N wt.dec_hi.length j, f (v k ω / √(c * τ j)) := fun ω => sum_congr rfl fun k hk => by rw [hnum N hN ω k hk]
    simp only [e] at a3 a4
    exact ⟨a3, a4⟩
  intro f hf1 hf2 hf3
  have hm1 : Measurable fun x => max (f x) 0 := hf1.max measurable_const
  have hm2 : Measurable fun x => max (-f x) 0 := hf1.neg.max measurable_const
  have hi1 : Integrable (fun x => max (f x) 0 ^ 2) stdG := by
    refine hf3.mono (hm1.pow_const 2).aestronglyMeasurable (Eventually.of_forall fun x => ?_)
    simp only [Real.norm_eq_abs, abs_pow]
    refine pow_le_pow_left₀ (abs_nonneg _) ?_ 2
    rw [abs_of_nonneg (le_max_right _ _)]
    exact max_le (le_abs_self _) (abs_nonneg _)
  have hi2 : Integrable (fun x => max (-f x) 0 ^ 2) stdG := by
    refine hf3.mono (hm2.pow_const 2).aestronglyMeasurable (Eventually.of_forall fun x => ?_)
    simp only [Real.norm_eq_abs, abs_pow]
    refine pow_le_pow_left₀ (abs_nonneg _) ?_ 2
    rw [abs_of_nonneg (le_max_right _ _)]
    exact max_le (neg_le_abs _) (abs_nonneg _)
  have l1 := hpos (fun x => le_max_right _ _) hm1 (fun x => by rw [hf2]) hi1
  have l2 := hpos (fun x => le_max_right _ _) hm2 (fun x => by rw [hf2]) hi2
  have hspl : ∀ y, f y = max (f y) 0 - max (-f y) 0 := fun y => (max_zero_sub_max_neg_zero_eq_self (f y)).symm
  have hI1 : Integrable (fun x => max (f x) 0) stdG := ((memLp_two_iff_integrable_sq hm1.aestronglyMeasurable).2 hi1).integrable (by norm_num)
  have hI2 : Integrable (fun x => max (-f x) 0) stdG := ((memLp_two_iff_integrable_sq hm2.aestronglyMeasurable).2 hi2).integrable (by norm_num)
  have hint : ∫ x, f x ∂stdG = ∫ x, max (f x) 0 ∂stdG - ∫ x, max (-f x) 0 ∂stdG := by
    rw [← integral_sub hI1 hI2]
    exact integral_congr_ae (Eventually.of_forall hspl)
  filter_upwards [l1, l2] with ω h1 h2
  rw [hint]
  refine (h1.sub h2).congr' ?_
  filter_upwards [eventually_ge_atTop N₁] with N hN
  rw [← sub_div, ← sum_sub_distrib]
  congr 1
  refine sum_congr rfl fun k hk => ?_
  rw [hnum N hN ω k hk]
  exact (hspl _).symm

/-- The almost sure convergence, for any function `G` with a scaling exponent. -/
theorem estimates_growing {M : ℕ} (hM : VanishingMoments wt.dec_hi M) (hM1 : 1 ≤ M) (hwt : wt.Valid) {G : ℤ → ℝ}
    {h' β : ℝ} (hK : ScalingKernel wt G h' β) (q : List ℝ) (n : ℕ) (h2 : (2:ℝ) ∈ q) (hq : ∀ e ∈ q, -(1 / 2) < e)
    (ε : ℝ) (hε : 0 < ε) : ∃ j₀ : ℕ, 1 ≤ j₀ ∧ ∀ j1 j2 : ℕ, j₀ ≤ j1 → j1 < j2 →
    ∀ {Ω : Type u} [MeasurableSpace Ω] {μ : Measure Ω} {R : ℕ} {x : Ω → ℕ → Fin R → ℝ} {A : ℕ → ℝ} {c : ℝ}, 0 < c →
      (∀ N, GaussianArray μ N (fun ω => firstSamples (x ω) N) (fun n m => A n + A m - c * G ((n : ℤ) - m))) →
      ∀ (p : PExp) (weighted : Bool) (r : Fin R), p = .none ∨ (p = .inf ∧ 4 ≤ wt.dec_hi.length) →
      ∀ᵐ ω ∂μ, ∀ᶠ N in atTop, ∃ d, mfAnalysisFull (asFloats (firstSamples (x ω) N)) j1 (some j2) 1 0 weighted wt p (some (.ndarray q)) n = .ok d ∧
        MonofractalNear d.dwt q n h' ε r := by
  obtain ⟨τ, V, B, hV, hB, hl⟩ := growing_means.{u} hM hM1 hwt hK 0 1
  obtain ⟨j₀, hj₀, hrec⟩ := recovered_of_typical (h' := h') hK.pos hB q n h2 hq ε hε
  refine ⟨j₀, hj₀, ?_⟩
  intro j1 j2 hj01 hj12 Ω _ μ R x A c hc hG p weighted r hp
  obtain ⟨η, hη, hrec⟩ := hrec j1 j2 hj01 hj12
  obtain ⟨N₀, hN₀⟩ : ∃ N₀, N₀ = 2 ^ (j2 + 1) * (2 * wt.dec_hi.length + 1) := ⟨_, rfl⟩
  have hN₀1 : 1 ≤ N₀ := by rw [hN₀]; exact Nat.one_le_iff_ne_zero.2 (by positivity)
  have hR : R ≠ 0 := fun h0 => by subst h0; exact r.elim0
  have hlen : ∀ N ω, (firstSamples (x ω) N).length = N := fun N ω => (hG N).length ω
  have hne : ∀ N, N₀ ≤ N → ∀ ω, firstSamples (x ω) N ≠ [] := by
    intro N hN ω h0; have := congrArg List.length h0; rw [hlen, List.length_nil] at this; omega
  have hex : ∀ N ω, ∃ w : WT R, N₀ ≤ N → waveletAnalysis (asFloats (firstSamples (x ω) N)) p wt j1 (some (j2 : ℝ)) 0 1 weighted = .ok w := by
    intro N ω
    by_cases hN : N₀ ≤ N
    · have hne' : asFloats (firstSamples (x ω) N) ≠ [] := by
        intro h0; apply hne N hN ω; simpa [asFloats] using h0
      obtain ⟨w, hw⟩ := C05_total (asFloats (firstSamples (x ω) N)) p (hp.imp id (·.1)) wt j1 (some (j2 : ℝ)) 0 1 weighted hR hne' one_ne_zero
      exact ⟨w, fun _ => hw⟩
    · have hne' : asFloats [fun _ : Fin R => (0:ℝ)] ≠ [] := by simp [asFloats]
      obtain ⟨w, -⟩ := C05_total (asFloats [fun _ : Fin R => (0:ℝ)]) p (hp.imp id (·.1)) wt j1 (some (j2 : ℝ)) 0 1 weighted hR hne' one_ne_zero
      exact ⟨w, fun h => absurd h hN⟩
  choose w hw using hex
  have hlong : ∀ N, N₀ ≤ N → ∀ ω, (w N ω).j2_eff = j2 ∧ j2 ≤ (w N ω).wt_coefs.values.length := by
    intro N hN ω
    have h0 := hw N ω hN
    rw [asFloats_sampled (hlen N ω)] at h0
    refine long_enough hR hwt (hp.imp id (·.2)) (by omega) ?_ h0
    refine le_trans (Nat.mul_le_mul_left _ ?_) (hN₀ ▸ hN)
    omega
  have hP : ∀ N, N₀ ≤ N → IncrementAnalysis μ wt G c 0 1 N (fun ω => firstSamples (x ω) N) (w N) :=
    fun N hN => ⟨⟨A, hG N⟩, p, j1, some (j2 : ℝ), weighted, fun ω => hw N ω hN⟩
  obtain ⟨hτ, hnz, hmean⟩ := hl r hc hP (J := j2) (fun N hN ω => (hlong N hN ω).2)
  have hall : ∀ᵐ ω ∂μ, ∀ j ∈ Icc 1 j2, ∀ p ∈ (testList q n).toFinset,
      Tendsto (fun N => (∑ k ∈ interior N wt.dec_hi.length j, testF p.1 p.2 ((w N ω).wt_coefs.number j k r / √(c * τ j))) /
        (interior N wt.dec_hi.length j).card) atTop (𝓝 (normalMoment p.1 p.2)) := by
    rw [Finset.eventually_all]
    intro j hj
    rw [Finset.eventually_all]
    intro p hp
    exact hmean j (mem_Icc.1 hj).1 (mem_Icc.1 hj).2 (measurable_testF p.1 p.2) (testF_even _ _) (testF_sq (testList_gt hq p (List.mem_toFinset.1 hp)) _)
  filter_upwards [hall, hnz] with ω h3 h4
  have h5 : ∀ᶠ N in atTop, ∀ j ∈ Icc 1 j2, ∀ p ∈ (testList q n).toFinset,
      |(∑ k ∈ interior N wt.dec_hi.length j, testF p.1 p.2 ((w N ω).wt_coefs.number j k r / √(c * τ j))) /
        (interior N wt.dec_hi.length j).card - normalMoment p.1 p.2| < η := by
    rw [Finset.eventually_all]
    intro j hj
    rw [Finset.eventually_all]
    intro p hp
    have := (Metric.tendsto_nhds.1 (h3 j hj p hp)) η hη
    simpa [Real.dist_eq] using this
  filter_upwards [h5, eventually_ge_atTop N₀] with N h6 hN
  refine hrec hwt r hc (hne N hN ω) (hp.imp id (·.1)) (hw N ω hN) (hlong N hN ω).1 (hlong N hN ω).2 hτ ?_
  intro p' hp' hpJ
  obtain ⟨-, -, he⟩ := (hP N hN).entries hwt ω
  obtain ⟨j, hj, hj1, hj2, hr⟩ := he p' hp'
  obtain ⟨xs, e1, e2, e3, e4⟩ := hr r
  have hjJ : j ≤ j2 := by rw [hj] at hpJ; exact_mod_cast hpJ
  have hmem : j ∈ Icc 1 j2 := mem_Icc.2 ⟨hj1, hjJ⟩
  have hcard := (hP N hN).card hwt hR hj1 hj2
  refine ⟨xs, e1, fun h => by rw [h, List.length_nil] at e3; omega, fun y hy h0 => ?_, fun t ht => ?_⟩
  · obtain ⟨k, hk, rfl⟩ := e4 y hy
    exact h4 j hj1 hjJ N hN k hk h0
  · rw [e2 (fun y => testF t.1 t.2 (y / √(c * τ p'.1.toNat))), e3, hj, Int.toNat_natCast]
    exact h6 j hmem t (List.mem_toFinset.2 ht)

/-- **C135**: a recording that goes on for ever, with Gaussian power law increments.  Almost surely there is a time from which on every analysis by
`mf_analysis_full` of all the samples recorded so far gives `H`, `zeta(q)`, the log-cumulants, `h(q)` and `D(q)` within `ε` of the truth. -/
theorem C135_power_law {M : ℕ} (hM : VanishingMoments wt.dec_hi M) (hM1 : 1 ≤ M) (hwt : wt.Valid) (ho : OrthonormalBank wt) {H : ℝ}
    (h0 : 0 < H) (h1 : H < 1) (hH : 4 * H - 4 * M < -1) (q : List ℝ) (n : ℕ) (h2 : (2:ℝ) ∈ q) (hq : ∀ e ∈ q, -(1 / 2) < e)
    (ε : ℝ) (hε : 0 < ε) : ∃ j₀ : ℕ, 1 ≤ j₀ ∧ ∀ j1 j2 : ℕ, j₀ ≤ j1 → j1 < j2 →
    ∀ {Ω : Type u} [MeasurableSpace Ω] {μ : Measure Ω} {R : ℕ} {x : Ω → ℕ → Fin R → ℝ} {A : ℕ → ℝ} {c : ℝ}, 0 < c →
      (∀ N, GaussianArray μ N (fun ω => firstSamples (x ω) N) (fun n m => A n + A m - c * |(n : ℝ) - m| ^ (2 * H))) →
      ∀ (p : PExp) (weighted : Bool) (r : Fin R), p = .none ∨ (p = .inf ∧ 4 ≤ wt.dec_hi.length) →
      ∀ᵐ ω ∂μ, ∀ᶠ N in atTop, ∃ d, mfAnalysisFull (asFloats (firstSamples (x ω) N)) j1 (some j2) 1 0 weighted wt p (some (.ndarray q)) n = .ok d ∧
        MonofractalNear d.dwt q n H ε r := by
  obtain ⟨j₀, hj₀, h⟩ := estimates_growing.{u} hM hM1 hwt (powerLaw_kernel hM hM1 hwt ho h0 h1 hH) q n h2 hq ε hε
  refine ⟨j₀, hj₀, ?_⟩
  intro j1 j2 h3 h4 Ω _ μ R x A c hc hG
  have e : (fun n m : ℕ => A n + A m - c * |(((n : ℤ) - m : ℤ) : ℝ)| ^ (2 * H)) = fun n m : ℕ => A n + A m - c * |(n : ℝ) - m| ^ (2 * H) := by
    funext n m; push_cast; rfl
  refine h j1 j2 h3 h4 hc (A := A) (fun N => ?_)
  rw [e]; exact hG N

end

end MFA
