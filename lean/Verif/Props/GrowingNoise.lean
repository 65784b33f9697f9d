import Verif.Props.Growing
import Verif.Props.NoiseEstimation
import Verif.Lemmas.Path

/-!
# Properties C134 and C135 for fractional Gaussian noise; recordings that go on for ever exist
-/

namespace MFA

universe u

open Classical Finset MeasureTheory ProbabilityTheory Filter Topology

noncomputable section

variable {wt : Wavelet}

/-- **C134, noise**: simulate `N` samples of fractional Gaussian noise with `fgn` and analyse them with `mf_analysis_full`: the probability that the
exponent `H - 1` (or any of the other estimates) is not recovered within `ε` is at most `C / N`. -/
theorem C134_fgn {M : ℕ} (hM : VanishingMoments wt.dec_hi M) (hM1 : 1 ≤ M) (hwt : wt.Valid) (ho : OrthonormalBank wt) {H : ℝ}
    (h0 : 0 < H) (h1 : H < 1) (hr : 1 / 2 ≤ H ∨ RegularWavelet wt) (q : List ℝ) (n : ℕ) (h2 : (2:ℝ) ∈ q) (hq : ∀ e ∈ q, -(1 / 2) < e)
    (ε : ℝ) (hε : 0 < ε) : ∃ j₀ : ℕ, 1 ≤ j₀ ∧ ∀ j1 j2 : ℕ, j₀ ≤ j1 → j1 < j2 → ∃ C : ℝ,
    ∀ {Ω : Type u} [MeasurableSpace Ω] {μ : Measure Ω} {gen : Ω → ℕ → ℝ}, StdNormal μ gen →
    ∀ {N R : ℕ} {sigma : ℝ} {dt : Option ℝ} (z0 : Option (CArr R)), 2 ≤ N → sigma ≠ 0 → (∀ d, dt = some d → 0 ≤ d) → R ≠ 0 →
      ∃ x : Ω → RArr R, Returns (fgn R N H sigma dt "cme" z0) gen x ∧
      ∀ (p : PExp) (weighted : Bool) (r : Fin R), p = .none ∨ (p = .inf ∧ 4 ≤ wt.dec_hi.length) →
      μ {ω | ¬ ∃ d, mfAnalysisFull (asFloats (x ω)) j1 (some j2) 1 0 weighted wt p (some (.ndarray q)) n = .ok d ∧
        MonofractalNear d.dwt q n (H - 1) ε r} ≤ ENNReal.ofReal (C / N) := by
  obtain ⟨β, hK⟩ := noise_kernel hM hM1 hwt ho h0 h1 hr
  obtain ⟨j₀, hj₀, h⟩ := estimates_rate.{u} hM hM1 hwt hK q n h2 hq ε hε
  refine ⟨j₀, hj₀, ?_⟩
  intro j1 j2 hj01 hj12
  obtain ⟨C, hC⟩ := h j1 j2 hj01 hj12
  refine ⟨C, ?_⟩
  intro Ω _ μ gen hg N R sigma dt z0 hN2 hs hdt hR
  obtain ⟨x, hx, hG, -⟩ := C85_fgn (R := R) (sigma := sigma) z0 h0 h1.le hN2 hdt hR hg
  have hstep := (fgnDt_eq (by omega : N ≠ 0) hdt).2
  refine ⟨x, hx, fun p weighted r hp => ?_⟩
  have e : (fun n m : ℕ => fgnCovariance H sigma (effStep dt N) (n * effStep dt N) (m * effStep dt N)) =
      fun n m : ℕ => (0:ℝ) + 0 - sigma ^ 2 * effStep dt N ^ (2 * H) * -noiseKernel (2 * H) ((n : ℤ) - m) := by
    funext n m
    rw [fgn_noiseKernel H sigma hstep.le]
    ring
  rw [e] at hG
  exact hC (A := fun _ => 0) (by positivity) (by omega) hG p weighted r hp

/-- **C135, noise**: a recording of fractional Gaussian noise that goes on for ever.  Almost surely there is a time from which on every analysis by
`mf_analysis_full` of all the samples recorded so far gives the exponent `H - 1` and the other estimates within `ε`. -/
theorem C135_noise {M : ℕ} (hM : VanishingMoments wt.dec_hi M) (hM1 : 1 ≤ M) (hwt : wt.Valid) (ho : OrthonormalBank wt) {H : ℝ}
    (h0 : 0 < H) (h1 : H < 1) (hr : 1 / 2 ≤ H ∨ RegularWavelet wt) (q : List ℝ) (n : ℕ) (h2 : (2:ℝ) ∈ q) (hq : ∀ e ∈ q, -(1 / 2) < e)
    (ε : ℝ) (hε : 0 < ε) : ∃ j₀ : ℕ, 1 ≤ j₀ ∧ ∀ j1 j2 : ℕ, j₀ ≤ j1 → j1 < j2 →
    ∀ {Ω : Type u} [MeasurableSpace Ω] {μ : Measure Ω} {R : ℕ} {x : Ω → ℕ → Fin R → ℝ} {sigma d : ℝ}, sigma ≠ 0 → 0 < d →
      (∀ N, GaussianArray μ N (fun ω => firstSamples (x ω) N) (fun n m => fgnCovariance H sigma d (n * d) (m * d))) →
      ∀ (p : PExp) (weighted : Bool) (r : Fin R), p = .none ∨ (p = .inf ∧ 4 ≤ wt.dec_hi.length) →
      ∀ᵐ ω ∂μ, ∀ᶠ N in atTop, ∃ d, mfAnalysisFull (asFloats (firstSamples (x ω) N)) j1 (some j2) 1 0 weighted wt p (some (.ndarray q)) n = .ok d ∧
        MonofractalNear d.dwt q n (H - 1) ε r := by
  obtain ⟨β, hK⟩ := noise_kernel hM hM1 hwt ho h0 h1 hr
  obtain ⟨j₀, hj₀, h⟩ := estimates_growing.{u} hM hM1 hwt hK q n h2 hq ε hε
  refine ⟨j₀, hj₀, ?_⟩
  intro j1 j2 h3 h4 Ω _ μ R x sigma d hs hd hG
  have e : (fun n m : ℕ => fgnCovariance H sigma d (n * d) (m * d)) =
      fun n m : ℕ => (0:ℝ) + 0 - sigma ^ 2 * d ^ (2 * H) * -noiseKernel (2 * H) ((n : ℤ) - m) := by
    funext n m
    rw [fgn_noiseKernel H sigma hd.le]
    ring
  refine h j1 j2 h3 h4 (A := fun _ => 0) (c := sigma ^ 2 * d ^ (2 * H)) (by positivity) (fun N => ?_)
  rw [← e]; exact hG N

/-- **C135**, the recordings exist: for all `0 < H < 1`, `sigma` and `d > 0` there is a fractional Brownian motion observed for ever at the times `d, 2 d, ...`, in
any number of independent realisations: the first `N` samples have the law of the simulation by `fbm` of `N` samples, for every `N`. -/
theorem C135_exists_fbm {H : ℝ} (h0 : 0 < H) (h1 : H < 1) (sigma : ℝ) {d : ℝ} (hd : 0 < d) (R : ℕ) :
    ∃ (Ω : Type) (_ : MeasurableSpace Ω) (μ : Measure Ω) (x : Ω → ℕ → Fin R → ℝ),
    (∀ N, GaussianArray μ N (fun ω => firstSamples (x ω) N) (fun n m => fbmCovariance H sigma ((n + 1 : ℕ) * d) ((m + 1 : ℕ) * d))) ∧
    ∀ {Ω' : Type u} [MeasurableSpace Ω'] {ν : Measure Ω'} {gen : Ω' → ℕ → ℝ}, StdNormal ν gen → ∀ N, 2 ≤ N → R ≠ 0 →
      ∃ y : Ω' → RArr R, Returns (fbm R N H sigma (some d) "cme" none) gen y ∧
      ν.map (fun ω (p : Fin N × Fin R) => sample y p.1 p.2 ω) = μ.map (fun ω (p : Fin N × Fin R) => x ω p.1 p.2) := by
  have hstep : ∀ N, effStep (some d) N = d := fun N => by simp [effStep, hd.ne']
  have hps : KernelPSD (fun n m : ℕ => fbmCovariance H sigma ((n + 1 : ℕ) * d) ((m + 1 : ℕ) * d)) := by
    refine kernelPSD_of_cov fun K => ?_
    obtain ⟨Ω, m, μ, gen, hg⟩ := exists_stdNormal
    obtain ⟨x, -, hG, -⟩ := C85_fbm (R := 1) (N := K + 2) (sigma := sigma) (dt := some d) none h0 h1.le (by omega)
      (fun d' hd' => by cases hd'; exact hd.le) (by norm_num) hg
    rw [hstep] at hG
    exact ⟨K + 2, by omega, Ω, m, μ, x, hG.toHasCovariance⟩
  obtain ⟨Ω, m, μ, x, hx⟩ := hps.recording R
  refine ⟨Ω, m, μ, x, hx, ?_⟩
  intro Ω' _ ν gen hg N hN hR
  obtain ⟨y, hy, hG, -⟩ := C85_fbm (R := R) (N := N) (sigma := sigma) (dt := some d) none h0 h1.le hN (fun d' hd' => by cases hd'; exact hd.le) hR hg
  rw [hstep] at hG
  refine ⟨y, hy, (C85_law hG (hx N)).trans ?_⟩
  congr 1
  funext ω p
  show ((firstSamples (x ω) N).getD p.1 fun _ => 0) p.2 = _
  rw [firstSamples_getD _ p.1.isLt]

/-! The hypotheses are met: for `db2`, every `0 < H < 1` and two realisations, with `q = [2, 1, -1/4]`. -/
example (H : ℝ) (h0 : 0 < H) (h1 : H < 1) (ε : ℝ) (hε : 0 < ε) : ∃ j1 : ℕ, 1 ≤ j1 ∧ ∃ (Ω : Type) (_ : MeasurableSpace Ω) (μ : Measure Ω)
    (x : Ω → ℕ → Fin 2 → ℝ), (∀ N, GaussianArray μ N (fun ω => firstSamples (x ω) N) (fun n m => fbmCovariance H 1 ((n + 1 : ℕ) * 1) ((m + 1 : ℕ) * 1))) ∧
    ∀ᵐ ω ∂μ, ∀ᶠ N in atTop, ∃ d, mfAnalysisFull (asFloats (firstSamples (x ω) N)) j1 (some (j1 + 4 : ℕ)) 1 0 true db2 .inf (some (.ndarray [2, 1, -1 / 4])) 3 = .ok d ∧
        MonofractalNear d.dwt [2, 1, -1 / 4] 3 H ε 0 := by
  obtain ⟨hv, ho, hm⟩ := db2_orthonormal
  have hq : ∀ e ∈ ([2, 1, -1 / 4] : List ℝ), -(1 / 2) < e := by
    intro e he; simp only [List.mem_cons, List.not_mem_nil, or_false] at he; rcases he with rfl | rfl | rfl <;> norm_num
  obtain ⟨a, ha, h⟩ := C135_power_law hm (by norm_num) hv ho h0 h1 (by push_cast; linarith) [2, 1, -1 / 4] 3 (by simp) hq ε hε
  obtain ⟨Ω, m, μ, x, hx, -⟩ := C135_exists_fbm.{0} h0 h1 1 one_pos 2
  refine ⟨a, ha, Ω, m, μ, x, hx, ?_⟩
  rw [fbm_powerLaw H 1 zero_le_one] at hx
  exact h a (a + 4) le_rfl (by omega) (by simp) hx .inf true 0 (Or.inr ⟨rfl, by simp [db2]⟩)

/-! And for the noise: the increments of the motion above. -/
example (H : ℝ) (h0 : 0 < H) (h1 : H < 1) (ε : ℝ) (hε : 0 < ε) : ∃ j1 : ℕ, 1 ≤ j1 ∧ ∃ (Ω : Type) (_ : MeasurableSpace Ω) (μ : Measure Ω)
    (x : Ω → ℕ → Fin 2 → ℝ), (∀ N, GaussianArray μ N (fun ω => firstSamples (x ω) N) (fun n m => fgnCovariance H 1 1 (n * 1) (m * 1))) ∧
    ∀ᵐ ω ∂μ, ∀ᶠ N in atTop, ∃ d, mfAnalysisFull (asFloats (firstSamples (x ω) N)) j1 (some (j1 + 4 : ℕ)) 1 0 true db2 .inf (some (.ndarray [2, 1, -1 / 4])) 3 = .ok d ∧
        MonofractalNear d.dwt [2, 1, -1 / 4] 3 (H - 1) ε 0 := by
  obtain ⟨hv, ho, hm⟩ := db2_orthonormal
  have hq : ∀ e ∈ ([2, 1, -1 / 4] : List ℝ), -(1 / 2) < e := by
    intro e he; simp only [List.mem_cons, List.not_mem_nil, or_false] at he; rcases he with rfl | rfl | rfl <;> norm_num
  obtain ⟨a, ha, h⟩ := C135_noise hm (by norm_num) hv ho h0 h1 (Or.inr db2_regular) [2, 1, -1 / 4] 3 (by simp) hq ε hε
  have hps : KernelPSD (fun n m : ℕ => fgnCovariance H 1 1 ((n : ℝ) * 1) ((m : ℝ) * 1)) := by
    refine kernelPSD_of_cov fun K => ?_
    obtain ⟨Ω, m, μ, gen, hg⟩ := exists_stdNormal
    obtain ⟨x, -, hG, -⟩ := C85_fgn (R := 1) (N := K + 2) (sigma := 1) (dt := some 1) none h0 h1.le (by omega)
      (fun d' hd' => by cases hd'; exact zero_le_one) (by norm_num) hg
    rw [show effStep (some 1) (K + 2) = 1 by simp [effStep]] at hG
    exact ⟨K + 2, by omega, Ω, m, μ, x, hG.toHasCovariance⟩
  obtain ⟨Ω, m, μ, x, hx⟩ := hps.recording 2
  exact ⟨a, ha, Ω, m, μ, x, hx, h a (a + 4) le_rfl (by omega) one_ne_zero one_pos hx .inf true 0 (Or.inr ⟨rfl, by simp [db2]⟩)⟩

end

end MFA
