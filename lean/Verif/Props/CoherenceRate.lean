import Verif.Props.BiGrowing

/-!
# Property C144: how fast the coherence of two signals converges to their correlation, and its almost sure convergence on growing recordings
-/

namespace MFA

universe u

open Classical Finset MeasureTheory ProbabilityTheory Filter Topology

noncomputable section

variable {wt : Wavelet}

/-- **C144, power law signals**: two signals are linear combinations, with coefficients `α` and `β`, of the columns of an array of independent
Gaussian signals with stationary increments and variogram `2c|t|^(2H)`.  For every length `N`, `bivariate_analysis_full` returns, except with probability at most
`C / N`, a coherence that at every scale up to `j2` is within `ε` of the correlation coefficient of the two combinations. -/
theorem C144_increments {M : ℕ} (hM : VanishingMoments wt.dec_hi M) (hM1 : 1 ≤ M) (hwt : wt.Valid) (ho : OrthonormalBank wt)
    (hF : 4 ≤ wt.dec_hi.length) {H : ℝ} (h0 : 0 < H) (h1 : H < 1) (hH : 4 * H - 4 * M < -1) {R : ℕ} {α β : Fin R → ℝ} (hα : α ≠ 0)
    (hβ : β ≠ 0) (g nm : ℝ) (hnm : nm ≠ 0) (j2 : ℕ) (ε : ℝ) (hε : 0 < ε) : ∃ C : ℝ,
    ∀ {Ω : Type u} [MeasurableSpace Ω] {μ : Measure Ω} {N : ℕ} {x : Ω → List (Fin R → ℝ)} {A : ℕ → ℝ} {c : ℝ}, 0 < c → 1 ≤ N →
      GaussianArray μ N x (fun n m => A n + A m - c * |(n : ℝ) - m| ^ (2 * H)) →
      ∀ (j1 : ℕ) (weighted : Bool) (q1 q2 : List ℝ) (n : ℕ), 1 ≤ j1 → j1 ≤ j2 → q1.Nodup → q2.Nodup →
      ((0:ℝ) ∈ q1 ∧ (1:ℝ) ∈ q1 ∧ (2:ℝ) ∈ q1) → ((0:ℝ) ∈ q2 ∧ (1:ℝ) ∈ q2 ∧ (2:ℝ) ∈ q2) → 2 ≤ n →
      μ {ω | ¬ ∃ d l, bivariateAnalysisFull (asFloats (mixture α (x ω))) (asFloats (mixture β (x ω))) j1 (some (j2 : ℝ)) nm g weighted wt
          .inf (some (.ndarray q1)) (some (.ndarray q2)) n = .ok (d, l) ∧
        ∀ j : ℕ, 1 ≤ j → j ≤ j2 → ∃ z, d.structure_.coherence[j - 1]? = some z ∧ Near z (correlation α β) ε} ≤ ENNReal.ofReal (C / N) := by
  obtain ⟨C, h⟩ := coherence_rate.{u} hM hM1 hwt hF (powerLaw_kernel hM hM1 hwt ho h0 h1 hH) hα hβ g nm hnm j2 ε hε
  refine ⟨C, ?_⟩
  intro Ω _ μ N x A c hc hN hG
  refine h (A := A) hc hN ?_
  convert hG using 7
  push_cast; rfl

/-- **C144, end to end**: the same for combinations of the motions returned by one call of `fbm`. -/
theorem C144_fbm {M : ℕ} (hM : VanishingMoments wt.dec_hi M) (hM1 : 1 ≤ M) (hwt : wt.Valid) (ho : OrthonormalBank wt)
    (hF : 4 ≤ wt.dec_hi.length) {H : ℝ} (h0 : 0 < H) (h1 : H < 1) (hH : 4 * H - 4 * M < -1) {R : ℕ} {α β : Fin R → ℝ} (hα : α ≠ 0)
    (hβ : β ≠ 0) (g nm : ℝ) (hnm : nm ≠ 0) (j2 : ℕ) (ε : ℝ) (hε : 0 < ε) : ∃ C : ℝ,
    ∀ {Ω : Type u} [MeasurableSpace Ω] {μ : Measure Ω} {gen : Ω → ℕ → ℝ}, StdNormal μ gen →
    ∀ {N : ℕ} {sigma : ℝ} {dt : Option ℝ} (z0 : Option (CArr R)), 2 ≤ N → sigma ≠ 0 → (∀ d, dt = some d → 0 ≤ d) →
      ∃ x : Ω → RArr R, Returns (fbm R N H sigma dt "cme" z0) gen x ∧
      ∀ (j1 : ℕ) (weighted : Bool) (q1 q2 : List ℝ) (n : ℕ), 1 ≤ j1 → j1 ≤ j2 → q1.Nodup → q2.Nodup →
      ((0:ℝ) ∈ q1 ∧ (1:ℝ) ∈ q1 ∧ (2:ℝ) ∈ q1) → ((0:ℝ) ∈ q2 ∧ (1:ℝ) ∈ q2 ∧ (2:ℝ) ∈ q2) → 2 ≤ n →
      μ {ω | ¬ ∃ d l, bivariateAnalysisFull (asFloats (mixture α (x ω))) (asFloats (mixture β (x ω))) j1 (some (j2 : ℝ)) nm g weighted wt
          .inf (some (.ndarray q1)) (some (.ndarray q2)) n = .ok (d, l) ∧
        ∀ j : ℕ, 1 ≤ j → j ≤ j2 → ∃ z, d.structure_.coherence[j - 1]? = some z ∧ Near z (correlation α β) ε} ≤ ENNReal.ofReal (C / N) := by
  obtain ⟨C, h⟩ := C144_increments.{u} hM hM1 hwt ho hF h0 h1 hH hα hβ g nm hnm j2 ε hε
  refine ⟨C, ?_⟩
  intro Ω _ μ gen hg N sigma dt z0 hN2 hs hdt
  have hR : R ≠ 0 := by
    rintro rfl; exact hα (Subsingleton.elim _ _)
  obtain ⟨x, hx, hG, -⟩ := C85_fbm (R := R) (sigma := sigma) z0 h0 h1.le hN2 hdt hR hg
  have hstep := (fgnDt_eq (by omega : N ≠ 0) hdt).2
  rw [fbm_powerLaw H sigma hstep.le] at hG
  refine ⟨x, hx, fun j1 weighted q1 q2 n a1 a2 a3 a4 a5 a6 a7 => ?_⟩
  exact h (by positivity) (by omega) hG j1 weighted q1 q2 n a1 a2 a3 a4 a5 a6 a7

/-- **C144 for noise** returned by `fgn`. -/
theorem C144_fgn {M : ℕ} (hM : VanishingMoments wt.dec_hi M) (hM1 : 1 ≤ M) (hwt : wt.Valid) (ho : OrthonormalBank wt)
    (hF : 4 ≤ wt.dec_hi.length) {H : ℝ} (h0 : 0 < H) (h1 : H < 1) (hr : 1 / 2 ≤ H ∨ RegularWavelet wt) {R : ℕ} {α β : Fin R → ℝ} (hα : α ≠ 0)
    (hβ : β ≠ 0) (g nm : ℝ) (hnm : nm ≠ 0) (j2 : ℕ) (ε : ℝ) (hε : 0 < ε) : ∃ C : ℝ,
    ∀ {Ω : Type u} [MeasurableSpace Ω] {μ : Measure Ω} {gen : Ω → ℕ → ℝ}, StdNormal μ gen →
    ∀ {N : ℕ} {sigma : ℝ} {dt : Option ℝ} (z0 : Option (CArr R)), 2 ≤ N → sigma ≠ 0 → (∀ d, dt = some d → 0 ≤ d) →
      ∃ x : Ω → RArr R, Returns (fgn R N H sigma dt "cme" z0) gen x ∧
      ∀ (j1 : ℕ) (weighted : Bool) (q1 q2 : List ℝ) (n : ℕ), 1 ≤ j1 → j1 ≤ j2 → q1.Nodup → q2.Nodup →
      ((0:ℝ) ∈ q1 ∧ (1:ℝ) ∈ q1 ∧ (2:ℝ) ∈ q1) → ((0:ℝ) ∈ q2 ∧ (1:ℝ) ∈ q2 ∧ (2:ℝ) ∈ q2) → 2 ≤ n →
      μ {ω | ¬ ∃ d l, bivariateAnalysisFull (asFloats (mixture α (x ω))) (asFloats (mixture β (x ω))) j1 (some (j2 : ℝ)) nm g weighted wt
          .inf (some (.ndarray q1)) (some (.ndarray q2)) n = .ok (d, l) ∧
        ∀ j : ℕ, 1 ≤ j → j ≤ j2 → ∃ z, d.structure_.coherence[j - 1]? = some z ∧ Near z (correlation α β) ε} ≤ ENNReal.ofReal (C / N) := by
  obtain ⟨b, hK⟩ := noise_kernel hM hM1 hwt ho h0 h1 hr
  obtain ⟨C, h⟩ := coherence_rate.{u} hM hM1 hwt hF hK hα hβ g nm hnm j2 ε hε
  refine ⟨C, ?_⟩
  intro Ω _ μ gen hg N sigma dt z0 hN2 hs hdt
  have hR : R ≠ 0 := by
    rintro rfl; exact hα (Subsingleton.elim _ _)
  obtain ⟨x, hx, hG, -⟩ := C85_fgn (R := R) (sigma := sigma) z0 h0 h1.le hN2 hdt hR hg
  have hstep := (fgnDt_eq (by omega : N ≠ 0) hdt).2
  have e : (fun n m : ℕ => fgnCovariance H sigma (effStep dt N) (n * effStep dt N) (m * effStep dt N)) =
      fun n m : ℕ => (0:ℝ) + 0 - sigma ^ 2 * effStep dt N ^ (2 * H) * -noiseKernel (2 * H) ((n : ℤ) - m) := by
    funext n m
    rw [fgn_noiseKernel H sigma hstep.le]
    ring
  rw [e] at hG
  refine ⟨x, hx, fun j1 weighted q1 q2 n a1 a2 a3 a4 a5 a6 a7 => ?_⟩
  exact h (A := fun _ => 0) (by positivity) (by omega) hG j1 weighted q1 q2 n a1 a2 a3 a4 a5 a6 a7

/-- The almost sure convergence of the coherence, for any function `G` with a scaling exponent. -/
theorem coherence_growing {M : ℕ} (hM : VanishingMoments wt.dec_hi M) (hM1 : 1 ≤ M) (hwt : wt.Valid)
    (hF : 4 ≤ wt.dec_hi.length) {G : ℤ → ℝ} {h b : ℝ} (hK : ScalingKernel wt G h b) {R : ℕ} {α β : Fin R → ℝ} (hα : α ≠ 0)
    (hβ : β ≠ 0) (g nm : ℝ) (hnm : nm ≠ 0)
    {Ω : Type u} [MeasurableSpace Ω] {μ : Measure Ω} {x : Ω → ℕ → Fin R → ℝ} {A : ℕ → ℝ} {c : ℝ} (hc : 0 < c)
    (hG : ∀ N, GaussianArray μ N (fun ω => firstSamples (x ω) N) (fun n m => A n + A m - c * G ((n : ℤ) - m)))
    (j1 j2 : ℕ) (weighted : Bool) (q1 q2 : List ℝ) (n : ℕ) (hj1 : 1 ≤ j1) (hj12 : j1 ≤ j2) (hn1 : q1.Nodup) (hn2 : q2.Nodup)
    (hq1 : (0:ℝ) ∈ q1 ∧ (1:ℝ) ∈ q1 ∧ (2:ℝ) ∈ q1) (hq2 : (0:ℝ) ∈ q2 ∧ (1:ℝ) ∈ q2 ∧ (2:ℝ) ∈ q2) (hn : 2 ≤ n) (ε : ℝ) (hε : 0 < ε) :
      ∀ᵐ ω ∂μ, ∀ᶠ N in atTop, ∃ d l, bivariateAnalysisFull (asFloats (mixture α (firstSamples (x ω) N)))
          (asFloats (mixture β (firstSamples (x ω) N))) j1 (some (j2 : ℝ)) nm g weighted wt
          .inf (some (.ndarray q1)) (some (.ndarray q2)) n = .ok (d, l) ∧
        ∀ j : ℕ, 1 ≤ j → j ≤ j2 → ∃ z, d.structure_.coherence[j - 1]? = some z ∧ Near z (correlation α β) ε := by
  obtain ⟨t, ht, hγ⟩ := exists_combination (α := α) hβ
  have ha := sum_sq_pos hα
  have hb := sum_sq_pos hβ
  have hc' := sum_sq_pos hγ
  obtain ⟨η, hη, hcore⟩ := coherence_at.{u} (G := G) hwt hF hα hβ ht hγ g nm hnm j2 ε hε
  obtain ⟨τ, V, B, -, -, hl⟩ := growing_means.{u} hM hM1 hwt hK g nm
  obtain ⟨N₀, hN₀⟩ : ∃ N₀, N₀ = 2 ^ (j2 + 1) * (wt.dec_hi.length + 1) := ⟨_, rfl⟩
  have hN₀1 : 1 ≤ N₀ := by rw [hN₀]; exact Nat.one_le_iff_ne_zero.2 (by positivity)
  have hml : ∀ (γ : Fin R → ℝ) N ω, (mixture γ (firstSamples (x ω) N)).length = N := fun γ N ω => by rw [mixture_length, (hG N).length]
  have hex : ∀ (y : List (Fin 1 → ℝ)) (N : ℕ), y.length = N → ∃ w : WT 1, N₀ ≤ N →
      waveletAnalysis (asFloats y) .inf wt j1 (some (j2 : ℝ)) g nm weighted = .ok w := by
    intro y N hy
    by_cases hN : N₀ ≤ N
    · obtain ⟨w, hw⟩ := C05_total (asFloats y) .inf (Or.inr rfl) wt j1 (some (j2 : ℝ)) g nm weighted one_ne_zero (by
        intro h0; have := congrArg List.length h0; simp [asFloats, hy] at this; omega) hnm
      exact ⟨w, fun _ => hw⟩
    · have hne' : asFloats [fun _ : Fin 1 => (0:ℝ)] ≠ [] := by simp [asFloats]
      obtain ⟨w, -⟩ := C05_total (asFloats [fun _ : Fin 1 => (0:ℝ)]) .inf (Or.inr rfl) wt j1 (some (j2 : ℝ)) g nm weighted one_ne_zero hne' hnm
      exact ⟨w, fun h => absurd h hN⟩
  choose W hW using fun (N : ℕ) (γ : Fin R → ℝ) ω => hex (mixture γ (firstSamples (x ω) N)) N (hml γ N ω)
  have hGm : ∀ γ N, GaussianArray μ N (fun ω => firstSamples (mixed γ (x ω)) N)
      (fun n m => (∑ r, γ r ^ 2) * A n + (∑ r, γ r ^ 2) * A m - (∑ r, γ r ^ 2) * c * G ((n : ℤ) - m)) := by
    intro γ N
    have := mixture_gaussian (hG N) γ
    have e : (fun n m : ℕ => (∑ r, γ r ^ 2) * (A n + A m - c * G ((n : ℤ) - m))) =
        fun n m : ℕ => (∑ r, γ r ^ 2) * A n + (∑ r, γ r ^ 2) * A m - (∑ r, γ r ^ 2) * c * G ((n : ℤ) - m) := by
      funext n m; ring
    rw [e] at this
    simpa only [firstSamples_mixed] using this
  have hP : ∀ γ N, N₀ ≤ N → IncrementAnalysis μ wt G ((∑ r, γ r ^ 2) * c) g nm N (fun ω => firstSamples (mixed γ (x ω)) N) (W N γ) := fun γ N hN =>
    ⟨⟨fun n => (∑ r, γ r ^ 2) * A n, hGm γ N⟩, .inf, j1, some (j2 : ℝ), weighted, fun ω => by rw [firstSamples_mixed]; exact hW N γ ω hN⟩
  have hlong : ∀ γ N, N₀ ≤ N → ∀ ω, j2 ≤ (W N γ ω).wt_coefs.values.length := by
    intro γ N hN ω
    have h0 := hW N γ ω hN
    rw [asFloats_sampled (hml γ N ω)] at h0
    exact (long_enough one_ne_zero hwt (Or.inr hF) (hj1.trans hj12) (hN₀ ▸ hN) h0).2
  have hτ : ∀ j, 1 ≤ j → j ≤ j2 → 0 < τ j := fun j h1 h2 =>
    ((hl (0 : Fin 1) (mul_pos ha hc) (fun N hN => hP α N hN) (J := j2) (fun N hN ω => hlong α N hN ω)).1 j h1 h2).1
  have typ : ∀ γ : Fin R → ℝ, 0 < ∑ r, γ r ^ 2 → ∀ᵐ ω ∂μ, ∀ᶠ N in atTop, ∀ p ∈ (W N γ ω).wt_coefs.values, p.1 ≤ j2 →
      ∃ xs, Entries (col p.2 (0 : Fin 1)) xs ∧ TypicalScale [(2, 0)] η √((∑ r, γ r ^ 2) * c * τ p.1.toNat) xs := by
    intro γ hγ
    obtain ⟨-, hnz, hmean⟩ := hl (0 : Fin 1) (mul_pos hγ hc) (fun N hN => hP γ N hN) (J := j2) (fun N hN ω => hlong γ N hN ω)
    have hall : ∀ᵐ ω ∂μ, ∀ j ∈ Icc 1 j2, Tendsto (fun N => (∑ k ∈ interior N wt.dec_hi.length j,
        testF 2 0 ((W N γ ω).wt_coefs.number j k 0 / √((∑ r, γ r ^ 2) * c * τ j))) / (interior N wt.dec_hi.length j).card) atTop (𝓝 (normalMoment 2 0)) := by
      rw [Finset.eventually_all]
      intro j hj
      exact hmean j (mem_Icc.1 hj).1 (mem_Icc.1 hj).2 (measurable_testF 2 0) (testF_even _ _) (testF_sq (by norm_num) _)
    filter_upwards [hall, hnz] with ω h3 h4
    have h5 : ∀ᶠ N in atTop, ∀ j ∈ Icc 1 j2, |(∑ k ∈ interior N wt.dec_hi.length j,
        testF 2 0 ((W N γ ω).wt_coefs.number j k 0 / √((∑ r, γ r ^ 2) * c * τ j))) / (interior N wt.dec_hi.length j).card - normalMoment 2 0| < η := by
      rw [Finset.eventually_all]
      intro j hj
      have := (Metric.tendsto_nhds.1 (h3 j hj)) η hη
      simpa [Real.dist_eq] using this
    filter_upwards [h5, eventually_ge_atTop N₀] with N h6 hN
    intro p' hp' hpJ
    obtain ⟨-, -, he⟩ := (hP γ N hN).entries hwt ω
    obtain ⟨j, hj, hj1, hj2, hr⟩ := he p' hp'
    obtain ⟨xs, e1, e2, e3, e4⟩ := hr 0
    have hjJ : j ≤ j2 := by rw [hj] at hpJ; exact_mod_cast hpJ
    have hcard := (hP γ N hN).card hwt one_ne_zero hj1 hj2
    refine ⟨xs, e1, fun h => by rw [h, List.length_nil] at e3; omega, fun y hy h0 => ?_, fun s hs => ?_⟩
    · obtain ⟨k, hk, rfl⟩ := e4 y hy
      exact h4 j hj1 hjJ N hN k hk h0
    · obtain rfl := List.mem_singleton.1 hs
      rw [e2 (fun y => testF 2 0 (y / √((∑ r, γ r ^ 2) * c * τ p'.1.toNat))), e3, hj, Int.toNat_natCast]
      exact h6 j (mem_Icc.2 ⟨hj1, hjJ⟩)
  filter_upwards [typ α ha, typ β hb, typ _ hc'] with ω g1 g2 g3
  filter_upwards [g1, g2, g3, eventually_ge_atTop N₀] with N g1 g2 g3 hN
  exact hcore hc hτ (hN₀ ▸ hN) (hG N) j1 weighted q1 q2 n hj1 hj12 hn1 hn2 hq1 hq2 hn (fun γ ω => hW N γ ω hN) ω g1 g2 g3

/-- **C144, recordings**: two recordings that go on for ever, combinations (`α`, `β`) of independent Gaussian recordings with power law
increments.  Almost surely there is a time from which on every analysis by `bivariate_analysis_full` of all the samples recorded so far returns a coherence
that is within `ε` of the correlation of the two combinations, at all scales up to `j2`. -/
theorem C144_recording {M : ℕ} (hM : VanishingMoments wt.dec_hi M) (hM1 : 1 ≤ M) (hwt : wt.Valid) (ho : OrthonormalBank wt)
    (hF : 4 ≤ wt.dec_hi.length) {H : ℝ} (h0 : 0 < H) (h1 : H < 1) (hH : 4 * H - 4 * M < -1) {R : ℕ} {α β : Fin R → ℝ} (hα : α ≠ 0)
    (hβ : β ≠ 0) (g nm : ℝ) (hnm : nm ≠ 0)
    {Ω : Type u} [MeasurableSpace Ω] {μ : Measure Ω} {x : Ω → ℕ → Fin R → ℝ} {A : ℕ → ℝ} {c : ℝ} (hc : 0 < c)
    (hG : ∀ N, GaussianArray μ N (fun ω => firstSamples (x ω) N) (fun n m => A n + A m - c * |(n : ℝ) - m| ^ (2 * H)))
    (j1 j2 : ℕ) (weighted : Bool) (q1 q2 : List ℝ) (n : ℕ) (hj1 : 1 ≤ j1) (hj12 : j1 ≤ j2) (hn1 : q1.Nodup) (hn2 : q2.Nodup)
    (hq1 : (0:ℝ) ∈ q1 ∧ (1:ℝ) ∈ q1 ∧ (2:ℝ) ∈ q1) (hq2 : (0:ℝ) ∈ q2 ∧ (1:ℝ) ∈ q2 ∧ (2:ℝ) ∈ q2) (hn : 2 ≤ n) (ε : ℝ) (hε : 0 < ε) :
      ∀ᵐ ω ∂μ, ∀ᶠ N in atTop, ∃ d l, bivariateAnalysisFull (asFloats (mixture α (firstSamples (x ω) N)))
          (asFloats (mixture β (firstSamples (x ω) N))) j1 (some (j2 : ℝ)) nm g weighted wt
          .inf (some (.ndarray q1)) (some (.ndarray q2)) n = .ok (d, l) ∧
        ∀ j : ℕ, 1 ≤ j → j ≤ j2 → ∃ z, d.structure_.coherence[j - 1]? = some z ∧ Near z (correlation α β) ε := by
  have e : (fun n m : ℕ => A n + A m - c * |(((n : ℤ) - m : ℤ) : ℝ)| ^ (2 * H)) = fun n m : ℕ => A n + A m - c * |(n : ℝ) - m| ^ (2 * H) := by
    funext n m; push_cast; rfl
  refine coherence_growing hM hM1 hwt hF (powerLaw_kernel hM hM1 hwt ho h0 h1 hH) hα hβ g nm hnm (A := A) hc (fun N => ?_) j1 j2 weighted q1 q2 n hj1 hj12
    hn1 hn2 hq1 hq2 hn ε hε
  rw [e]; exact hG N

/-! The hypotheses are met: `db2`, two motions, any correlation `ρ`, and one recording for all lengths. -/
example (H : ℝ) (h0 : 0 < H) (h1 : H < 1) (ρ : ℝ) (hρ : |ρ| ≤ 1) (j2 : ℕ) (hj2 : 1 ≤ j2) (ε : ℝ) (hε : 0 < ε) : ∃ C : ℝ,
    (∃ (Ω : Type) (_ : MeasurableSpace Ω) (μ : Measure Ω) (gen : Ω → ℕ → ℝ), StdNormal μ gen ∧ ∀ N, 2 ≤ N → ∃ x : Ω → RArr 2,
    Returns (fbm 2 N H 1 none "cme" none) gen x ∧
    μ {ω | ¬ ∃ d l, bivariateAnalysisFull (asFloats (mixture ![1, 0] (x ω))) (asFloats (mixture ![ρ, √(1 - ρ ^ 2)] (x ω))) (1 : ℕ)
        (some (j2 : ℝ)) 1 0 true db2 .inf (some (.ndarray [0, 1, 2])) (some (.ndarray [0, 1, 2])) 2 = .ok (d, l) ∧
      ∀ j : ℕ, 1 ≤ j → j ≤ j2 → ∃ z, d.structure_.coherence[j - 1]? = some z ∧ Near z ρ ε} ≤ ENNReal.ofReal (C / N)) ∧
    ∃ (Ω : Type) (_ : MeasurableSpace Ω) (μ : Measure Ω) (x : Ω → ℕ → Fin 2 → ℝ), IsProbabilityMeasure μ ∧
    ∀ᵐ ω ∂μ, ∀ᶠ N in atTop, ∃ d l, bivariateAnalysisFull (asFloats (mixture ![1, 0] (firstSamples (x ω) N)))
        (asFloats (mixture ![ρ, √(1 - ρ ^ 2)] (firstSamples (x ω) N))) (1 : ℕ)
        (some (j2 : ℝ)) 1 0 true db2 .inf (some (.ndarray [0, 1, 2])) (some (.ndarray [0, 1, 2])) 2 = .ok (d, l) ∧
      ∀ j : ℕ, 1 ≤ j → j ≤ j2 → ∃ z, d.structure_.coherence[j - 1]? = some z ∧ Near z ρ ε := by
  obtain ⟨hv, ho, hm⟩ := db2_orthonormal
  have hβ : (![ρ, √(1 - ρ ^ 2)] : Fin 2 → ℝ) ≠ 0 := by
    intro h
    have a1 := congrFun h 0
    have a2 := congrFun h 1
    simp only [Matrix.cons_val_zero, Matrix.cons_val_one, Pi.zero_apply] at a1 a2
    rw [a1] at a2
    norm_num at a2
  have hα : (![1, 0] : Fin 2 → ℝ) ≠ 0 := fun h => by have := congrFun h 0; simp at this
  obtain ⟨C, hC⟩ := C144_fbm hm (by norm_num) hv ho (by simp [db2]) h0 h1 (by push_cast; linarith) hα hβ 0 1 one_ne_zero j2 ε hε
  obtain ⟨Ω, m, μ, gen, hg⟩ := exists_stdNormal
  refine ⟨C, ⟨Ω, m, μ, gen, hg, fun N hN => ?_⟩, ?_⟩
  · obtain ⟨x, hx, hb⟩ := hC hg (N := N) (sigma := 1) (dt := none) none hN one_ne_zero (by intro d hd; cases hd)
    have := hb 1 true [0, 1, 2] [0, 1, 2] 2 le_rfl hj2 (by norm_num) (by norm_num) (by norm_num) (by norm_num) le_rfl
    rw [correlation_pair hρ] at this
    exact ⟨x, hx, this⟩
  · obtain ⟨Ω', m', μ', x, hx, -⟩ := C135_exists_fbm.{0} h0 h1 1 one_pos 2
    have hp := (hx 0).gaussian.isProbabilityMeasure
    rw [fbm_powerLaw H 1 zero_le_one] at hx
    have := C144_recording hm (by norm_num) hv ho (by simp [db2]) h0 h1 (by push_cast; linarith) hα hβ 0 1 one_ne_zero (by simp) hx
      1 j2 true [0, 1, 2] [0, 1, 2] 2 le_rfl hj2 (by norm_num) (by norm_num) (by norm_num) (by norm_num) le_rfl ε hε
    rw [correlation_pair hρ] at this
    exact ⟨Ω', m', μ', x, hp, this⟩

end

end MFA
