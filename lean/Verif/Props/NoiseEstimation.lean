import Verif.Lemmas.NoiseKernel
import Verif.Props.BetaHurst
import Verif.Props.EndToEnd

/-!
# Property C114: end to end, the analysis recovers the parameter of simulated fractional Gaussian noise
-/

namespace MFA

universe u

open Classical Finset MeasureTheory ProbabilityTheory

noncomputable section

variable {wt : Wavelet}

/-! ### The Haar and Daubechies wavelets are regular -/

theorem haarN_lowStep (G : ℤ → ℝ) (n : ℤ) : lowStep haarN.dec_lo G n = G (2 * n) + (G (2 * n + 1) + G (2 * n - 1)) / 2 := by
  have h2 : √(2:ℝ) * √2 = 2 := Real.mul_self_sqrt (by norm_num)
  have h : (√(2:ℝ))⁻¹ * (√2)⁻¹ = 1 / 2 := by rw [← mul_inv, h2]; norm_num
  simp only [lowStep, haarN, List.length_cons, List.length_nil, zero_add, Nat.reduceAdd, sum_range_succ, sum_range_zero]
  simp only [List.getD_cons_zero, List.getD_cons_succ, Nat.cast_zero, Nat.cast_one, sub_zero, add_zero, h]
  rw [show 2 * n - 1 + 1 = 2 * n by ring]
  ring

theorem db2_lowStep (G : ℤ → ℝ) (n : ℤ) : lowStep db2.dec_lo G n =
    G (2 * n) + 9 / 16 * (G (2 * n + 1) + G (2 * n - 1)) - 1 / 16 * (G (2 * n + 3) + G (2 * n - 3)) := by
  have h2 : √(2:ℝ) ≠ 0 := by positivity
  have s2 : √(2:ℝ) ^ 2 = 2 := Real.sq_sqrt (by norm_num)
  have s3 : √(3:ℝ) ^ 2 = 3 := Real.sq_sqrt (by norm_num)
  simp only [lowStep, db2, List.length_cons, List.length_nil, zero_add, Nat.reduceAdd, sum_range_succ, sum_range_zero]
  simp only [List.getD_cons_zero, List.getD_cons_succ, Nat.cast_zero, Nat.cast_one, Nat.cast_ofNat, sub_zero, add_zero]
  rw [show 2 * n - 1 + 1 = 2 * n by ring, show 2 * n - 1 + 2 = 2 * n + 1 by ring, show 2 * n - 1 + 3 = 2 * n + 2 by ring,
    show 2 * n - 2 + 1 = 2 * n - 1 by ring, show 2 * n - 2 + 2 = 2 * n by ring, show 2 * n - 2 + 3 = 2 * n + 1 by ring,
    show 2 * n - 3 + 1 = 2 * n - 2 by ring, show 2 * n - 3 + 2 = 2 * n - 1 by ring, show 2 * n - 3 + 3 = 2 * n by ring]
  generalize G (2 * n) = g0
  generalize G (2 * n + 1) = g1
  generalize G (2 * n - 1) = g1'
  generalize G (2 * n + 2) = g2
  generalize G (2 * n - 2) = g2'
  generalize G (2 * n + 3) = g3
  generalize G (2 * n - 3) = g3'
  field_simp
  rw [s2]
  ring_nf
  rw [s3]
  ring

/-- The Haar wavelet is regular. -/
theorem haarN_regular : RegularWavelet haarN := by
  refine regular_of_bound (C := dblDetail haarN (secondDiff fun n => if n = 0 then 1 else 0) 0) fun j => le_of_eq ?_
  induction j with
  | zero => simp
  | succ j ih =>
    have e : lowStep haarN.dec_lo (secondDiff fun n => if n = 0 then 1 else 0) =
        fun n => 1 / 2 * secondDiff (fun n => if n = 0 then 1 else 0) n + 0 * (0:ℝ) := by
      funext n
      rw [haarN_lowStep]
      simp only [secondDiff]
      by_cases h0 : n = 0
      · subst h0; norm_num
      by_cases h1 : n = 1
      · subst h1; norm_num
      by_cases h2 : n = -1
      · subst h2; norm_num
      repeat rw [if_neg (by omega)]
      norm_num
    rw [dblDetail_succ, e, dblDetail_lin haarN _ (fun _ => 0), ih, pow_succ]
    ring

/-- The wavelet `db2` is regular. -/
theorem db2_regular : RegularWavelet db2 := by
  obtain ⟨K, hK⟩ : ∃ K : ℤ → ℝ, K = secondDiff fun n => if n = 0 then 1 else 0 := ⟨_, rfl⟩
  obtain ⟨E, hE⟩ : ∃ E : ℤ → ℝ, E = fun n => 2 * (if n = 0 then 1 else 0) - (if n + 2 = 0 then 1 else 0) - (if n - 2 = 0 then 1 else 0) := ⟨_, rfl⟩
  have e1 : lowStep db2.dec_lo K = fun n => 1 / 2 * K n + (-1 / 16) * E n := by
    funext n
    rw [db2_lowStep]
    simp only [hK, hE, secondDiff]
    by_cases h0 : n = 0
    · subst h0; norm_num
    by_cases h1 : n = 1
    · subst h1; norm_num
    by_cases h2 : n = -1
    · subst h2; norm_num
    by_cases h3 : n = 2
    · subst h3; norm_num
    by_cases h4 : n = -2
    · subst h4; norm_num
    repeat rw [if_neg (by omega)]
    norm_num
  have e2 : lowStep db2.dec_lo E = K := by
    funext n
    rw [db2_lowStep]
    simp only [hK, hE, secondDiff]
    by_cases h0 : n = 0
    · subst h0; norm_num
    by_cases h1 : n = 1
    · subst h1; norm_num
    by_cases h2 : n = -1
    · subst h2; norm_num
    repeat rw [if_neg (by omega)]
    norm_num
  obtain ⟨x, hx⟩ : ∃ x : ℕ → ℝ, x = fun j => dblDetail db2 K j := ⟨_, rfl⟩
  have hrec : ∀ j : ℕ, x (j + 2) = x (j + 1) / 2 - x j / 16 := by
    intro j
    have a1 : x (j + 2) = 1 / 2 * x (j + 1) + (-1 / 16) * dblDetail db2 E (j + 1) := by
      simp only [hx]
      rw [dblDetail_succ db2 K (j + 1), e1, dblDetail_lin]
    rw [a1, dblDetail_succ db2 E j, e2, hx]
    ring
  have hz : ∀ j : ℕ, x (j + 1) - x j / 4 = (x 1 - x 0 / 4) * (1 / 4) ^ j := by
    intro j
    induction j with
    | zero => simp
    | succ j ih => rw [hrec, pow_succ, ← mul_assoc, ← ih]; ring
  obtain ⟨C, hC⟩ : ∃ C : ℝ, C = |x 0| + 4 * |x 1 - x 0 / 4| := ⟨_, rfl⟩
  have hC0 : 0 ≤ C := by rw [hC]; positivity
  have hb : ∀ j : ℕ, |x j| ≤ C * (1 / 2) ^ j := by
    intro j
    induction j with
    | zero => rw [pow_zero, mul_one, hC]; linarith [abs_nonneg (x 1 - x 0 / 4)]
    | succ j ih =>
      have h1 : x (j + 1) = x j / 4 + (x 1 - x 0 / 4) * (1 / 4) ^ j := by rw [← hz]; ring
      have h2 : |(x 1 - x 0 / 4) * (1 / 4) ^ j| ≤ C / 4 * (1 / 2) ^ j := by
        rw [abs_mul, abs_of_pos (by positivity : (0:ℝ) < (1 / 4) ^ j)]
        refine mul_le_mul (by rw [hC]; linarith [abs_nonneg (x 0)]) (pow_le_pow_left₀ (by norm_num) (by norm_num) j) (by positivity) (by positivity)
      rw [h1, pow_succ]
      refine (abs_add_le _ _).trans ?_
      rw [abs_div, show |(4:ℝ)| = 4 by norm_num]
      linarith
  refine regular_of_bound (C := C) fun j => ?_
  rw [← hK]
  have := (le_abs_self _).trans (hb j)
  simpa only [hx] using this

/-! ### Fractional Gaussian noise has a scaling exponent -/

theorem dblDetail_neg (wt : Wavelet) (G : ℤ → ℝ) (j : ℕ) : -dblDetail wt (fun n => -G n) j = dblDetail wt G j := by
  have := dblDetail_lin wt G G (-1) 0 j
  simp only [neg_one_mul, zero_mul, add_zero] at this
  rw [this, neg_neg]

/-- Fractional Gaussian noise of parameter `H` scales like a signal of exponent `H - 1`. -/
theorem noise_kernel {M : ℕ} (hM : VanishingMoments wt.dec_hi M) (hM1 : 1 ≤ M) (hwt : wt.Valid) (ho : OrthonormalBank wt) {H : ℝ}
    (h0 : 0 < H) (h1 : H < 1) (hr : 1 / 2 ≤ H ∨ RegularWavelet wt) :
    ∃ β, ScalingKernel wt (fun n => -noiseKernel (2 * H) n) (H - 1) β := by
  obtain ⟨hlo, halt⟩ := orthonormal_lo ho hM hM1
  have hhi := orthonormal_hi_ne ho
  have hMr : (1:ℝ) ≤ M := by exact_mod_cast hM1
  have decay : ∀ j : ℕ, 1 ≤ j → ∃ (T : ℤ → ℝ) (C e : ℝ), 0 ≤ C ∧ 2 * e < -1 ∧ (∀ n : ℤ, |T n| ≤ C * (1 + |(n : ℝ)|) ^ e) ∧
      ∀ k k' : ℤ, idealDetail wt (fun s => idealDetail wt (fun t => -noiseKernel (2 * H) (s - t)) j k') j k = T (k * 2 ^ j - k' * 2 ^ j) := by
    intro j hj
    obtain ⟨T, ⟨C, hC, hT⟩, hd⟩ := noise_decay hM (a := 2 * H) (by linarith) hj hj
    obtain ⟨b, hb⟩ := idealDetail_finsupp wt hj
    have neg : ∀ (x : ℤ → ℝ) (k : ℤ), idealDetail wt (fun t => -x t) j k = -idealDetail wt x j k := by
      intro x k
      rw [hb, hb]
      simp only [Finsupp.sum, mul_neg, sum_neg_distrib]
    refine ⟨fun n => -T n, C, _, hC, ?_, fun n => (abs_neg (T n)).trans_le (hT n), fun k k' => ?_⟩
    · linarith
    · simp only [neg]
      rw [hd]
  obtain ⟨c, hc, hlow⟩ := noise_lower hlo hhi (a := 2 * H) (by linarith) (by linarith)
  have e1 : 1 + 2 * (H - 1) = 2 * H - 1 := by ring
  rcases lt_trichotomy H (1 / 2) with hlt | heq | hgt
  · have hreg : RegularWavelet wt := hr.resolve_left (by linarith)
    obtain ⟨V, C, hV, hC, hA⟩ := noise_asymptotic_anti hreg hlo halt hhi (a := 2 * H) (by linarith) (by linarith)
    refine ⟨H, h0, ?_, decay⟩
    simp only [dblDetail_neg]
    refine scaling_law hV hC hc (fun i => ?_) (fun i => by rw [e1]; exact hlow i)
    rw [e1, show 2 * H - 1 - 2 * H = -1 by ring, Real.rpow_neg_one, inv_eq_one_div]
    exact hA i
  · refine ⟨1, one_pos, ⟨1, 0, one_pos, le_rfl, fun i => ?_⟩, decay⟩
    simp only [dblDetail_neg]
    rw [heq, show (2:ℝ) * (1 / 2) = 1 by norm_num, noise_white hwt ho]
    norm_num
  · obtain ⟨V, C, hV, hC, hA⟩ := noise_asymptotic hwt ho hlo hhi (a := 2 * H) (by linarith) (by linarith)
    refine ⟨H - 1 / 2, by linarith, ?_, decay⟩
    simp only [dblDetail_neg]
    refine scaling_law hV hC hc (fun i => ?_) (fun i => by rw [e1]; exact hlow i)
    rw [e1, show 2 * H - 1 - 2 * (H - 1 / 2) = 0 by ring, Real.rpow_zero]
    exact hA i

/-- The covariance of the noise in terms of the lag. -/
theorem fgn_noiseKernel (H sigma : ℝ) {d : ℝ} (hd : 0 ≤ d) (n m : ℕ) : fgnCovariance H sigma d (n * d) (m * d) =
    sigma ^ 2 * d ^ (2 * H) * noiseKernel (2 * H) ((n : ℤ) - m) := by
  have hp : ∀ x : ℝ, |x * d| ^ (2 * H) = |x| ^ (2 * H) * d ^ (2 * H) := fun x => by
    rw [abs_mul, abs_of_nonneg hd, Real.mul_rpow (abs_nonneg _) hd]
  simp only [fgnCovariance, fbmCovariance, noiseKernel]
  push_cast
  have a1 : |(m:ℝ) * d + d - (n * d + d)| = |((n:ℝ) - m) * d| := by rw [abs_sub_comm]; ring_nf
  have a2 : |(m:ℝ) * d - (n * d + d)| = |((n:ℝ) - m + 1) * d| := by rw [abs_sub_comm]; ring_nf
  have a3 : |(m:ℝ) * d + d - n * d| = |((n:ℝ) - m - 1) * d| := by rw [abs_sub_comm]; ring_nf
  have a4 : |(m:ℝ) * d - n * d| = |((n:ℝ) - m) * d| := by rw [abs_sub_comm]; ring_nf
  rw [a1, a2, a3, a4, hp ((n:ℝ) - m), hp ((n:ℝ) - m + 1), hp ((n:ℝ) - m - 1)]
  ring

/-- **C114, end to end**: simulate fractional Gaussian noise of parameter `H` with `fgn`, analyse it with `mf_analysis_full`.  For all
`ε`, `δ` there is a scale `j₀` such that for every range `j₀ ≤ j1 < j2` and every long enough signal, with probability at least
`1 - δ` the call returns and the estimated `H`, `zeta(q)`, `c_m`, `h(q)` and `D(q)` are all within `ε` of `H - 1`, `q (H - 1)`,
`H - 1` (0 for `m ≥ 2`), `H - 1` and 1: the noise has the exponent of the motion minus one.  One vanishing moment is enough.  When
`H < 1/2` the wavelet has to be regular, as the Haar wavelet and `db2` are. -/
theorem C114_fgn {M : ℕ} (hM : VanishingMoments wt.dec_hi M) (hM1 : 1 ≤ M) (hwt : wt.Valid) (ho : OrthonormalBank wt) {H : ℝ}
    (h0 : 0 < H) (h1 : H < 1) (hr : 1 / 2 ≤ H ∨ RegularWavelet wt) (q : List ℝ) (n : ℕ) (h2 : (2:ℝ) ∈ q) (hq : ∀ e ∈ q, -(1 / 2) < e)
    (ε δ : ℝ) (hε : 0 < ε) (hδ : 0 < δ) : ∃ j₀ : ℕ, 1 ≤ j₀ ∧ ∀ j1 j2 : ℕ, j₀ ≤ j1 → j1 < j2 → ∃ N₀ : ℕ,
    ∀ {Ω : Type u} [MeasurableSpace Ω] {μ : Measure Ω} {gen : Ω → ℕ → ℝ}, StdNormal μ gen →
    ∀ {N R : ℕ} {sigma : ℝ} {dt : Option ℝ} (z0 : Option (CArr R)), N₀ ≤ N → sigma ≠ 0 → (∀ d, dt = some d → 0 ≤ d) → R ≠ 0 →
      ∃ x : Ω → RArr R, Returns (fgn R N H sigma dt "cme" z0) gen x ∧
      ∀ (p : PExp) (weighted : Bool) (r : Fin R), p = .none ∨ (p = .inf ∧ 4 ≤ wt.dec_hi.length) →
      μ {ω | ¬ ∃ d, mfAnalysisFull (asFloats (x ω)) j1 (some j2) 1 0 weighted wt p (some (.ndarray q)) n = .ok d ∧
        MonofractalNear d.dwt q n (H - 1) ε r} ≤ ENNReal.ofReal δ := by
  obtain ⟨β, hK⟩ := noise_kernel hM hM1 hwt ho h0 h1 hr
  obtain ⟨j₀, hj₀, h⟩ := estimates_recovered.{u} hM hM1 hwt hK q n h2 hq ε δ hε hδ
  refine ⟨j₀, hj₀, ?_⟩
  intro j1 j2 hj01 hj12
  obtain ⟨N₀, hN₀⟩ := h j1 j2 hj01 hj12
  refine ⟨max N₀ 2, ?_⟩
  intro Ω _ μ gen hg N R sigma dt z0 hN hs hdt hR
  have hN2 := (le_max_right _ _).trans hN
  obtain ⟨x, hx, hG, -⟩ := C85_fgn (R := R) (sigma := sigma) z0 h0 h1.le hN2 hdt hR hg
  have hstep := (fgnDt_eq (by omega : N ≠ 0) hdt).2
  refine ⟨x, hx, fun p weighted r hp => ?_⟩
  have e : (fun n m : ℕ => fgnCovariance H sigma (effStep dt N) (n * effStep dt N) (m * effStep dt N)) =
      fun n m : ℕ => (0:ℝ) + 0 - sigma ^ 2 * effStep dt N ^ (2 * H) * -noiseKernel (2 * H) ((n : ℤ) - m) := by
    funext n m
    rw [fgn_noiseKernel H sigma hstep.le]
    ring
  rw [e] at hG
  exact hN₀ (A := fun _ => 0) (by positivity) ((le_max_left _ _).trans hN) hG p weighted r hp

/-! The hypotheses are met: for `db2` and every `0 < H < 1`, with `q = [2, 1, -1/4]`. -/
example (H : ℝ) (h0 : 0 < H) (h1 : H < 1) (ε δ : ℝ) (hε : 0 < ε) (hδ : 0 < δ) : ∃ j1 j2 N : ℕ, 1 ≤ j1 ∧ j1 < j2 ∧
    ∃ (Ω : Type) (_ : MeasurableSpace Ω) (μ : Measure Ω) (gen : Ω → ℕ → ℝ) (x : Ω → RArr 2), StdNormal μ gen ∧
    Returns (fgn 2 N H 1 none "cme" none) gen x ∧
    μ {ω | ¬ ∃ d, mfAnalysisFull (asFloats (x ω)) j1 (some j2) 1 0 true db2 .inf (some (.ndarray [2, 1, -1 / 4])) 3 = .ok d ∧
        MonofractalNear d.dwt [2, 1, -1 / 4] 3 (H - 1) ε 0} ≤ ENNReal.ofReal δ := by
  obtain ⟨hv, ho, hm⟩ := db2_orthonormal
  obtain ⟨j₀, hj₀, h⟩ := C114_fgn hm (by norm_num) hv ho h0 h1 (Or.inr db2_regular) [2, 1, -1 / 4] 3 (by simp)
    (by intro e he; simp only [List.mem_cons, List.not_mem_nil, or_false] at he; rcases he with rfl | rfl | rfl <;> norm_num) ε δ hε hδ
  obtain ⟨N₀, hN₀⟩ := h j₀ (j₀ + 1) le_rfl (by omega)
  obtain ⟨Ω, m, μ, gen, hg⟩ := exists_stdNormal
  obtain ⟨x, hx, hb⟩ := hN₀ hg (R := 2) (sigma := 1) (dt := none) none le_rfl one_ne_zero (by intro d hd; cases hd) (by norm_num)
  exact ⟨j₀, j₀ + 1, N₀, hj₀, by omega, Ω, m, μ, gen, x, hg, hx, hb .inf true 0 (Or.inr ⟨rfl, by simp [db2]⟩)⟩

/-- **C115, end to end**: simulate fractional Gaussian noise of parameter `H` with `fgn`, estimate the slope of the wavelet spectrum
with `fractal_analysis` on the band of the scales `j1..j2`.  For all `ε`, `δ` there is a scale `j₀` such that for every range
`j₀ ≤ j1 < j2` and every long enough signal the call returns and `beta` is within `ε` of `-(2 H - 1)` with probability at least
`1 - δ`: for white noise (`H = 1/2`) the estimated slope is close to 0. -/
theorem C115_fgn {M : ℕ} (hM : VanishingMoments wt.dec_hi M) (hM1 : 1 ≤ M) (hwt : wt.Valid) (ho : OrthonormalBank wt)
    {pywt : WaveletLookup} {n : ℕ} (hdb : pywt ("db" ++ toString n) = .ok wt) {H : ℝ}
    (h0 : 0 < H) (h1 : H < 1) (hr : 1 / 2 ≤ H ∨ RegularWavelet wt) (R : ℕ) (ε δ : ℝ) (hε : 0 < ε) (hδ : 0 < δ) : ∃ j₀ : ℕ, 1 ≤ j₀ ∧
    ∀ j1 j2 : ℕ, j₀ ≤ j1 → j1 < j2 → ∃ N₀ : ℕ,
    ∀ {Ω : Type u} [MeasurableSpace Ω] {μ : Measure Ω} {gen : Ω → ℕ → ℝ}, StdNormal μ gen →
    ∀ {N : ℕ} {sigma : ℝ} {dt : Option ℝ} (z0 : Option (CArr (R + 1))), N₀ ≤ N → sigma ≠ 0 → (∀ d, dt = some d → 0 ≤ d) →
      ∃ x : Ω → RArr (R + 1), Returns (fgn (R + 1) N H sigma dt "cme" z0) gen x ∧
      ∀ (fs : ℝ) (log : String), 0 < fs → log = "log2" ∨ log = "log" →
      μ {ω | ¬ ∃ v, fractalAnalysis pywt (asFloats (x ω)) fs n (scale2freq j2 fs, scale2freq j1 fs) log = .ok v ∧
        |v.beta - -(2 * H - 1)| ≤ ε} ≤ ENNReal.ofReal δ := by
  obtain ⟨j₀, hj₀, h⟩ := C114_fgn.{u} hM hM1 hwt ho h0 h1 hr [2] 1 (by simp) (by intro e he; simp at he; rw [he]; norm_num)
    (ε / 2) (δ / (R + 1)) (by positivity) (by positivity)
  refine ⟨j₀, hj₀, ?_⟩
  intro j1 j2 hj01 hj12
  obtain ⟨N₀, hN₀⟩ := h j1 j2 hj01 hj12
  refine ⟨max N₀ (2 ^ (j2 + 1) * (wt.dec_hi.length + 1)), ?_⟩
  intro Ω _ μ gen hg N sigma dt z0 hN hs hdt
  have hNl := (le_max_right _ _).trans hN
  obtain ⟨x, hx, hb⟩ := hN₀ hg (R := R + 1) z0 ((le_max_left _ _).trans hN) hs hdt (Nat.succ_ne_zero R)
  have hN2 : 2 ≤ N := by
    have h1 : 2 ≤ 2 ^ (j2 + 1) := by
      calc 2 = 2 ^ 1 := by norm_num
        _ ≤ 2 ^ (j2 + 1) := Nat.pow_le_pow_right (by norm_num) (by omega)
    have h2 : 2 ^ (j2 + 1) * 1 ≤ 2 ^ (j2 + 1) * (wt.dec_hi.length + 1) := Nat.mul_le_mul_left _ (by omega)
    omega
  have hlenx : ∀ ω, (x ω).length = N := by
    obtain ⟨x', hx', hG', -⟩ := C85_fgn (R := R + 1) (sigma := sigma) z0 h0 h1.le hN2 hdt (Nat.succ_ne_zero R) hg
    intro ω
    obtain ⟨k, hk, hkx⟩ := hx ω
    obtain ⟨k', hk', hkx'⟩ := hx' ω
    rw [hk] at hk'
    have : x ω = x' ω := by rw [← hkx, ← hkx', Except.ok.inj hk']
    rw [this]; exact hG'.length ω
  refine ⟨x, hx, fun fs log hfs hlog => ?_⟩
  have := beta_near hwt hdb hlenx (hj₀.trans hj01) hj12 hNl (fun r => hb .none false r (Or.inl rfl)) hfs hlog
  rwa [show 2 * (H - 1) + 1 = 2 * H - 1 by ring] at this

/-! The hypotheses are met: for `db2` and every `0 < H < 1`, with `q = [2, 1, -1/4]`. -/
example (H : ℝ) (h0 : 0 < H) (h1 : H < 1) (ε δ : ℝ) (hε : 0 < ε) (hδ : 0 < δ) : ∃ j1 j2 N : ℕ, 1 ≤ j1 ∧ j1 < j2 ∧
    ∃ (Ω : Type) (_ : MeasurableSpace Ω) (μ : Measure Ω) (gen : Ω → ℕ → ℝ) (x : Ω → RArr 2), StdNormal μ gen ∧
    Returns (fgn 2 N H 1 none "cme" none) gen x ∧
    μ {ω | ¬ ∃ d, mfAnalysisFull (asFloats (x ω)) j1 (some j2) 1 0 true db2 .inf (some (.ndarray [2, 1, -1 / 4])) 3 = .ok d ∧
        MonofractalNear d.dwt [2, 1, -1 / 4] 3 (H - 1) ε 0} ≤ ENNReal.ofReal δ := by
  obtain ⟨hv, ho, hm⟩ := db2_orthonormal
  obtain ⟨j₀, hj₀, h⟩ := C114_fgn hm (by norm_num) hv ho h0 h1 (Or.inr db2_regular) [2, 1, -1 / 4] 3 (by simp)
    (by intro e he; simp only [List.mem_cons, List.not_mem_nil, or_false] at he; rcases he with rfl | rfl | rfl <;> norm_num) ε δ hε hδ
  obtain ⟨N₀, hN₀⟩ := h j₀ (j₀ + 1) le_rfl (by omega)
  obtain ⟨Ω, m, μ, gen, hg⟩ := exists_stdNormal
  obtain ⟨x, hx, hb⟩ := hN₀ hg (R := 2) (sigma := 1) (dt := none) none le_rfl one_ne_zero (by intro d hd; cases hd) (by norm_num)
  exact ⟨j₀, j₀ + 1, N₀, hj₀, by omega, Ω, m, μ, gen, x, hg, hx, hb .inf true 0 (Or.inr ⟨rfl, by simp [db2]⟩)⟩

/-! The hypotheses of C115 are met: fractional Gaussian noise analysed with `db2`. -/
example (H : ℝ) (h0 : 0 < H) (h1 : H < 1) (ε δ : ℝ) (hε : 0 < ε) (hδ : 0 < δ) : ∃ j1 j2 N : ℕ, 1 ≤ j1 ∧ j1 < j2 ∧
    ∃ (Ω : Type) (_ : MeasurableSpace Ω) (μ : Measure Ω) (gen : Ω → ℕ → ℝ) (x : Ω → RArr 2), StdNormal μ gen ∧
    Returns (fgn 2 N H 1 none "cme" none) gen x ∧
    μ {ω | ¬ ∃ v, fractalAnalysis (fun s => if s = "db2" then .ok db2 else .error .valueError) (asFloats (x ω)) 1 2
        (scale2freq j2 1, scale2freq j1 1) "log2" = .ok v ∧ |v.beta - -(2 * H - 1)| ≤ ε} ≤ ENNReal.ofReal δ := by
  obtain ⟨hv, ho, hm⟩ := db2_orthonormal
  obtain ⟨j₀, hj₀, h⟩ := C115_fgn hm (by norm_num) hv ho (pywt := fun s => if s = "db2" then .ok db2 else .error .valueError) (n := 2)
    (by rw [if_pos (by decide)]) h0 h1 (Or.inr db2_regular) 1 ε δ hε hδ
  obtain ⟨N₀, hN₀⟩ := h j₀ (j₀ + 1) le_rfl (by omega)
  obtain ⟨Ω, m, μ, gen, hg⟩ := exists_stdNormal
  obtain ⟨x, hx, hb⟩ := hN₀ hg (sigma := 1) (dt := none) none le_rfl one_ne_zero (by intro d hd; cases hd)
  exact ⟨j₀, j₀ + 1, N₀, hj₀, by omega, Ω, m, μ, gen, x, hg, hx, hb 1 "log2" one_pos (Or.inl rfl)⟩

end

end MFA
