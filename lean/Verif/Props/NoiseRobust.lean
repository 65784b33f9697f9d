import Verif.Props.Gaps
import Verif.Props.PLeaderScaling

/-!
# Properties C120, C131 and C132 for fractional Gaussian noise
-/

namespace MFA

universe u

open Classical Finset MeasureTheory ProbabilityTheory

noncomputable section

variable {wt : Wavelet}

/-- The law of the noise returned by `fgn`, in the form used by the estimation theorems. -/
theorem fgn_kernel_form (H sigma : ℝ) {d : ℝ} (hd : 0 ≤ d) :
    (fun n m : ℕ => fgnCovariance H sigma d (n * d) (m * d)) =
      fun n m : ℕ => (0:ℝ) + 0 - sigma ^ 2 * d ^ (2 * H) * -noiseKernel (2 * H) ((n : ℤ) - m) := by
  funext n m
  rw [fgn_noiseKernel H sigma hd]
  ring

/-- **C120, noises**: fractional Gaussian noise simulated by `fgn`, fractionally integrated by the analysis (`gamint = g` with
`H - 1 + g > 0`) and analysed with p-leaders (`p_exp=2`): on wide enough ranges of scales and long enough signals the call returns with
probability at least `1 - δ` and the p-leader estimates are within `B / (j2 - j1)` of those of a signal of the single exponent `H - 1 + g`. -/
theorem C120_fgn {M : ℕ} (hM : VanishingMoments wt.dec_hi M) (hM1 : 1 ≤ M) (hwt : wt.Valid) (ho : OrthonormalBank wt)
    (hF : 4 ≤ wt.dec_hi.length) {H : ℝ} (h0 : 0 < H) (h1 : H < 1) (hr : 1 / 2 ≤ H ∨ RegularWavelet wt) (g : ℝ) (hpos : 0 < H - 1 + g)
    {e : Expo} (he : e.val = 2) (q : List ℝ) (n : ℕ) (h2 : (2:ℝ) ∈ q) (hq : ∀ t ∈ q, -(1 / 2) < t) :
    ∃ (B : ℝ) (W : ℕ), 0 ≤ B ∧ ∀ j1 j2 : ℕ, 1 ≤ j1 → j1 + W < j2 → ∀ (R : ℕ) (δ : ℝ), R ≠ 0 → 0 < δ → ∃ N₀ : ℕ,
    ∀ {Ω : Type u} [MeasurableSpace Ω] {μ : Measure Ω} {gen : Ω → ℕ → ℝ}, StdNormal μ gen →
    ∀ {N : ℕ} {sigma : ℝ} {dt : Option ℝ} (z0 : Option (CArr R)), N₀ ≤ N → sigma ≠ 0 → (∀ d, dt = some d → 0 ≤ d) →
      ∃ x : Ω → RArr R, Returns (fgn R N H sigma dt "cme" z0) gen x ∧
      μ {ω | ¬ ∃ d v, mfAnalysisFull (asFloats (x ω)) j1 (some j2) 1 g false wt (.num e) (some (.ndarray q)) n = .ok d ∧ d.lwt = some v ∧
        ∀ r, SingleExponentNear v q n (H - 1 + g) g (B / (j2 - j1)) r} ≤ ENNReal.ofReal δ := by
  obtain ⟨β, hK⟩ := noise_kernel hM hM1 hwt ho h0 h1 hr
  obtain ⟨B, W, hB, h⟩ := pleader_estimates.{u} hM hM1 hwt hF hK g 1 one_ne_zero (by linarith) he q n h2 hq
  rw [show H - 1 + g + 1 - 1 / 1 = H - 1 + g by ring] at h
  refine ⟨B, W, hB, fun j1 j2 h3 h4 R δ hR hδ => ?_⟩
  obtain ⟨N₀, hN₀⟩ := h j1 j2 h3 h4 R δ hR hδ
  refine ⟨max N₀ 2, ?_⟩
  intro Ω _ μ gen hg N sigma dt z0 hN hs hdt
  have hN2 := (le_max_right _ _).trans hN
  obtain ⟨x, hx, hG, -⟩ := C85_fgn (R := R) (sigma := sigma) z0 h0 h1.le hN2 hdt hR hg
  have hstep := (fgnDt_eq (by omega : N ≠ 0) hdt).2
  refine ⟨x, hx, ?_⟩
  rw [fgn_kernel_form H sigma hstep.le] at hG
  exact hN₀ (A := fun _ => 0) (by positivity) ((le_max_left _ _).trans hN) hG

/-- **C131, noises**: fractional Gaussian noise simulated by `fgn`, to which an adversary adds anything small in mean: the mean `P`-th power
of what is added is at most `ρ` times the `P`-th power of the standard deviation of the noise, `P` exceeding the moments by at least 2. -/
theorem C131_fgn {M : ℕ} (hM : VanishingMoments wt.dec_hi M) (hM1 : 1 ≤ M) (hwt : wt.Valid) (ho : OrthonormalBank wt) {H : ℝ}
    (h0 : 0 < H) (h1 : H < 1) (hr : 1 / 2 ≤ H ∨ RegularWavelet wt) (q : List ℝ) (n P : ℕ) (h2 : (2:ℝ) ∈ q) (hq : ∀ e ∈ q, e + 2 ≤ P)
    (ε δ : ℝ) (hε : 0 < ε) (hδ : 0 < δ) : ∃ j₀ : ℕ, 1 ≤ j₀ ∧ ∀ j1 j2 : ℕ, j₀ ≤ j1 → j1 < j2 → ∃ N₀ : ℕ, ∃ ρ : ℝ, 0 < ρ ∧
    ∀ {Ω : Type u} [MeasurableSpace Ω] {μ : Measure Ω} {gen : Ω → ℕ → ℝ}, StdNormal μ gen →
    ∀ {N R : ℕ} {sigma : ℝ} {dt : Option ℝ} (z0 : Option (CArr R)), N₀ ≤ N → sigma ≠ 0 → (∀ d, dt = some d → 0 ≤ d) → R ≠ 0 →
      ∃ x : Ω → RArr R, Returns (fgn R N H sigma dt "cme" z0) gen x ∧
      ∀ (p : PExp) (weighted : Bool) (r : Fin R), p = .none ∨ (p = .inf ∧ 4 ≤ wt.dec_hi.length) →
      ∀ e : Ω → Fin R → ℕ → ℝ, (∀ ω, ∑ t ∈ range N, |e ω r t| ^ P ≤ ρ * N * (|sigma| * effStep dt N ^ H) ^ P) →
      μ {ω | ¬ ∃ d, mfAnalysisFull (asFloats (perturbed (x ω) (e ω))) j1 (some j2) 1 0 weighted wt p (some (.ndarray q)) n = .ok d ∧
        PosMonofractalNear d.dwt q (H - 1) ε r} ≤ ENNReal.ofReal δ := by
  obtain ⟨m, rfl⟩ : ∃ m, P = m + 1 := ⟨P - 1, by
    have h := hq 2 h2
    have : (4:ℝ) ≤ P := by linarith
    have : 4 ≤ P := by exact_mod_cast this
    omega⟩
  obtain ⟨β, hK⟩ := noise_kernel hM hM1 hwt ho h0 h1 hr
  obtain ⟨j₀, hj₀, h⟩ := estimates_robust.{u} hM hM1 hwt hK q n m h2
    (fun e he => by have := hq e he; push_cast at this; linarith) ε δ hε hδ
  refine ⟨j₀, hj₀, fun j1 j2 h3 h4 => ?_⟩
  obtain ⟨N₀, ρ, hρ, hN₀⟩ := h j1 j2 h3 h4
  refine ⟨max N₀ 2, ρ, hρ, ?_⟩
  intro Ω _ μ gen hg N R sigma dt z0 hN hs hdt hR
  have hN2 := (le_max_right _ _).trans hN
  obtain ⟨x, hx, hG, -⟩ := C85_fgn (R := R) (sigma := sigma) z0 h0 h1.le hN2 hdt hR hg
  have hstep := (fgnDt_eq (by omega : N ≠ 0) hdt).2
  refine ⟨x, hx, fun p weighted r hp e hm => ?_⟩
  rw [fgn_kernel_form H sigma hstep.le] at hG
  refine hN₀ (A := fun _ => 0) (by positivity) ((le_max_left _ _).trans hN) hG p weighted r hp e fun ω => ?_
  have hc : √(sigma ^ 2 * effStep dt N ^ (2 * H)) = |sigma| * effStep dt N ^ H := by
    rw [Real.sqrt_mul (sq_nonneg _), Real.sqrt_sq_eq_abs, mul_comm 2 H, Real.rpow_mul hstep.le, Real.rpow_two,
      Real.sqrt_sq (Real.rpow_nonneg hstep.le _)]
  rw [hc]; exact hm ω

/-- **C132, noises**: fractional Gaussian noise simulated by `fgn`, from which an adversary erases at most a fraction `ρ` of the samples. -/
theorem C132_fgn {M : ℕ} (hM : VanishingMoments wt.dec_hi M) (hM1 : 1 ≤ M) (hwt : wt.Valid) (ho : OrthonormalBank wt) {H : ℝ}
    (h0 : 0 < H) (h1 : H < 1) (hr : 1 / 2 ≤ H ∨ RegularWavelet wt) (q : List ℝ) (n : ℕ) (h2 : (2:ℝ) ∈ q) (hq : ∀ e ∈ q, -(1 / 4) < e)
    (ε δ : ℝ) (hε : 0 < ε) (hδ : 0 < δ) : ∃ j₀ : ℕ, 1 ≤ j₀ ∧ ∀ j1 j2 : ℕ, j₀ ≤ j1 → j1 < j2 → ∃ N₀ : ℕ, ∃ ρ : ℝ, 0 < ρ ∧
    ∀ {Ω : Type u} [MeasurableSpace Ω] {μ : Measure Ω} {gen : Ω → ℕ → ℝ}, StdNormal μ gen →
    ∀ {N R : ℕ} {sigma : ℝ} {dt : Option ℝ} (z0 : Option (CArr R)), N₀ ≤ N → sigma ≠ 0 → (∀ d, dt = some d → 0 ≤ d) → R ≠ 0 →
      ∃ x : Ω → RArr R, Returns (fgn R N H sigma dt "cme" z0) gen x ∧
      ∀ (weighted : Bool) (r : Fin R) (missing : Ω → Fin R → Finset ℕ), (∀ ω r', ((missing ω r').card : ℝ) ≤ ρ * N) →
      μ {ω | ¬ ∃ d, mfAnalysisFull (withGaps (x ω) (missing ω)) j1 (some j2) 1 0 weighted wt .none (some (.ndarray q)) n = .ok d ∧
        MonofractalNear d.dwt q n (H - 1) ε r} ≤ ENNReal.ofReal δ := by
  obtain ⟨β, hK⟩ := noise_kernel hM hM1 hwt ho h0 h1 hr
  obtain ⟨j₀, hj₀, h⟩ := estimates_gaps.{u} hM hM1 hwt hK q n h2 hq ε δ hε hδ
  refine ⟨j₀, hj₀, fun j1 j2 h3 h4 => ?_⟩
  obtain ⟨N₀, ρ, hρ, hN₀⟩ := h j1 j2 h3 h4
  refine ⟨max N₀ 2, ρ, hρ, ?_⟩
  intro Ω _ μ gen hg N R sigma dt z0 hN hs hdt hR
  have hN2 := (le_max_right _ _).trans hN
  obtain ⟨x, hx, hG, -⟩ := C85_fgn (R := R) (sigma := sigma) z0 h0 h1.le hN2 hdt hR hg
  have hstep := (fgnDt_eq (by omega : N ≠ 0) hdt).2
  refine ⟨x, hx, fun weighted r missing hm => ?_⟩
  rw [fgn_kernel_form H sigma hstep.le] at hG
  exact hN₀ (A := fun _ => 0) (by positivity) ((le_max_left _ _).trans hN) hG weighted r missing hm

/-! The hypotheses are met: the noise of any parameter `0 < H < 1` analysed with `db2`, with `gamint = 1` for p-leaders, and with
every sample perturbed, respectively with missing samples. -/
example (H : ℝ) (h0 : 0 < H) (h1 : H < 1) (δ : ℝ) (hδ : 0 < δ) : ∃ B : ℝ, ∃ j1 j2 N : ℕ, 1 ≤ j1 ∧ j1 < j2 ∧
    ∃ (Ω : Type) (_ : MeasurableSpace Ω) (μ : Measure Ω) (gen : Ω → ℕ → ℝ) (x : Ω → RArr 2), StdNormal μ gen ∧
    Returns (fgn 2 N H 1 none "cme" none) gen x ∧
    μ {ω | ¬ ∃ d v, mfAnalysisFull (asFloats (x ω)) j1 (some j2) 1 1 false db2 (.num (.int 2)) (some (.ndarray [2, 1, -1 / 4])) 3 = .ok d ∧
        d.lwt = some v ∧ ∀ r, SingleExponentNear v [2, 1, -1 / 4] 3 (H - 1 + 1) 1 (B / (j2 - j1)) r} ≤ ENNReal.ofReal δ := by
  obtain ⟨hv, ho, hm⟩ := db2_orthonormal
  obtain ⟨B, W, -, h⟩ := C120_fgn hm (by norm_num) hv ho (by simp [db2]) h0 h1 (Or.inr db2_regular) 1 (by linarith) (e := .int 2)
    (by simp [Expo.val]) [2, 1, -1 / 4] 3 (by simp)
    (by intro e he; simp only [List.mem_cons, List.not_mem_nil, or_false] at he; rcases he with rfl | rfl | rfl <;> norm_num)
  obtain ⟨N₀, hN₀⟩ := h 1 (W + 2) le_rfl (by omega) 2 δ (by norm_num) hδ
  obtain ⟨Ω, m, μ, gen, hg⟩ := exists_stdNormal
  obtain ⟨x, hx, hb⟩ := hN₀ hg (sigma := 1) (dt := none) none le_rfl one_ne_zero (by intro d hd; cases hd)
  exact ⟨B, 1, W + 2, N₀, le_rfl, by omega, Ω, m, μ, gen, x, hg, hx, hb⟩

example (H : ℝ) (h0 : 0 < H) (h1 : H < 1) (ε δ : ℝ) (hε : 0 < ε) (hδ : 0 < δ) : ∃ j1 j2 N : ℕ, ∃ b : ℝ, 1 ≤ j1 ∧ j1 < j2 ∧ 0 < b ∧
    ∃ (Ω : Type) (_ : MeasurableSpace Ω) (μ : Measure Ω) (gen : Ω → ℕ → ℝ) (x : Ω → RArr 2), StdNormal μ gen ∧
    Returns (fgn 2 N H 1 (some 1) "cme" none) gen x ∧
    μ {ω | ¬ ∃ d, mfAnalysisFull (asFloats (perturbed (x ω) fun _ t => b * (-1) ^ t)) j1 (some j2) 1 0 true db2 .none
        (some (.ndarray [2, 1])) 3 = .ok d ∧ PosMonofractalNear d.dwt [2, 1] (H - 1) ε 0} ≤ ENNReal.ofReal δ := by
  obtain ⟨hv, ho, hm⟩ := db2_orthonormal
  obtain ⟨j₀, hj₀, h⟩ := C131_fgn hm (by norm_num) hv ho h0 h1 (Or.inr db2_regular) [2, 1] 3 4 (by simp)
    (by intro e he; simp only [List.mem_cons, List.not_mem_nil, or_false] at he; rcases he with rfl | rfl <;> norm_num) ε δ hε hδ
  obtain ⟨N₀, ρ, hρ, hN₀⟩ := h j₀ (j₀ + 1) le_rfl (by omega)
  obtain ⟨Ω, m, μ, gen, hg⟩ := exists_stdNormal
  obtain ⟨x, hx, hb⟩ := hN₀ hg (R := 2) (sigma := 1) (dt := some 1) none le_rfl one_ne_zero (by intro d hd; cases hd; norm_num) (by norm_num)
  refine ⟨j₀, j₀ + 1, N₀, min ρ 1, hj₀, by omega, lt_min hρ one_pos, Ω, m, μ, gen, x, hg, hx, ?_⟩
  refine hb .none true 0 (Or.inl rfl) (fun _ _ t => min ρ 1 * (-1) ^ t) fun ω => ?_
  have hmin : 0 < min ρ 1 := lt_min hρ one_pos
  have e1 : ∀ t : ℕ, |min ρ 1 * (-1) ^ t| ^ 4 = min ρ 1 ^ 4 := by
    intro t
    rw [abs_mul, abs_pow, abs_neg, abs_one, one_pow, mul_one, abs_of_pos hmin]
  have e2 : (effStep (some 1) N₀ : ℝ) = 1 := by simp [effStep]
  rw [e2]
  simp only [e1, sum_const, card_range, nsmul_eq_mul, abs_one, Real.one_rpow, mul_one, one_pow]
  rw [mul_comm]
  refine mul_le_mul_of_nonneg_right ?_ (Nat.cast_nonneg _)
  have : min ρ 1 ^ 4 ≤ min ρ 1 := by
    have := pow_le_pow_of_le_one hmin.le (min_le_right ρ 1) (by norm_num : 1 ≤ 4)
    rwa [pow_one] at this
  exact this.trans (min_le_left _ _)

example (H : ℝ) (h0 : 0 < H) (h1 : H < 1) (ε δ : ℝ) (hε : 0 < ε) (hδ : 0 < δ) : ∃ j1 j2 N K : ℕ, 1 ≤ j1 ∧ j1 < j2 ∧ 1 ≤ K ∧
    ∃ (Ω : Type) (_ : MeasurableSpace Ω) (μ : Measure Ω) (gen : Ω → ℕ → ℝ) (x : Ω → RArr 2), StdNormal μ gen ∧
    Returns (fgn 2 N H 1 (some 1) "cme" none) gen x ∧
    μ {ω | ¬ ∃ d, mfAnalysisFull (withGaps (x ω) fun r => (range K).filter fun t => ((x ω).getD t fun _ => 0) r < 0)
        j1 (some j2) 1 0 true db2 .none (some (.ndarray [2, 1, 0, -1 / 5])) 3 = .ok d ∧
        MonofractalNear d.dwt [2, 1, 0, -1 / 5] 3 (H - 1) ε 0} ≤ ENNReal.ofReal δ := by
  obtain ⟨hv, ho, hm⟩ := db2_orthonormal
  obtain ⟨j₀, hj₀, h⟩ := C132_fgn hm (by norm_num) hv ho h0 h1 (Or.inr db2_regular) [2, 1, 0, -1 / 5] 3 (by simp)
    (by intro e he; simp only [List.mem_cons, List.not_mem_nil, or_false] at he; rcases he with rfl | rfl | rfl | rfl <;> norm_num) ε δ hε hδ
  obtain ⟨N₀, ρ, hρ, hN₀⟩ := h j₀ (j₀ + 1) le_rfl (by omega)
  obtain ⟨N, hN⟩ := exists_nat_gt (max (N₀ : ℝ) (1 / ρ))
  have hN1 : N₀ ≤ N := by exact_mod_cast ((le_max_left _ _).trans hN.le)
  have hN3 : 1 ≤ ρ * N := by
    have := ((le_max_right _ _).trans hN.le)
    rw [div_le_iff₀ hρ] at this
    linarith
  obtain ⟨Ω, m, μ, gen, hg⟩ := exists_stdNormal
  obtain ⟨x, hx, hb⟩ := hN₀ hg (N := N) (R := 2) (sigma := 1) (dt := some 1) none hN1 one_ne_zero (by intro d hd; cases hd; norm_num) (by norm_num)
  refine ⟨j₀, j₀ + 1, N, ⌊ρ * N⌋₊, hj₀, by omega, Nat.le_floor (by exact_mod_cast hN3), Ω, m, μ, gen, x, hg, hx, ?_⟩
  refine hb true 0 _ fun ω r' => le_trans ?_ (Nat.floor_le (by positivity : 0 ≤ ρ * (N : ℝ)))
  have := card_filter_le (range ⌊ρ * (N : ℝ)⌋₊) fun t => ((x ω).getD t fun _ => 0) r' < 0
  rw [card_range] at this
  exact_mod_cast this

end

end MFA
