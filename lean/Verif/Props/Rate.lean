import Verif.Lemmas.Rate
import Verif.Lemmas.StrongLaw

/-!
# Property C134: the probability of a wrong estimate decreases at least as the inverse of the length of the signal
-/

namespace MFA

universe u

open Classical Finset MeasureTheory ProbabilityTheory Filter

noncomputable section

variable {wt : Wavelet}

/-- The rate, for any function `G` with a scaling exponent. -/
theorem estimates_rate {M : ℕ} (hM : VanishingMoments wt.dec_hi M) (hM1 : 1 ≤ M) (hwt : wt.Valid) {G : ℤ → ℝ}
    {h' β : ℝ} (hK : ScalingKernel wt G h' β) (q : List ℝ) (n : ℕ) (h2 : (2:ℝ) ∈ q) (hq : ∀ e ∈ q, -(1 / 2) < e)
    (ε : ℝ) (hε : 0 < ε) : ∃ j₀ : ℕ, 1 ≤ j₀ ∧ ∀ j1 j2 : ℕ, j₀ ≤ j1 → j1 < j2 → ∃ C : ℝ,
    ∀ {Ω : Type u} [MeasurableSpace Ω] {μ : Measure Ω} {R N : ℕ} {x : Ω → List (Fin R → ℝ)} {A : ℕ → ℝ} {c : ℝ}, 0 < c → 1 ≤ N →
      GaussianArray μ N x (fun n m => A n + A m - c * G ((n : ℤ) - m)) →
      ∀ (p : PExp) (weighted : Bool) (r : Fin R), p = .none ∨ (p = .inf ∧ 4 ≤ wt.dec_hi.length) →
      μ {ω | ¬ ∃ d, mfAnalysisFull (asFloats (x ω)) j1 (some j2) 1 0 weighted wt p (some (.ndarray q)) n = .ok d ∧
        MonofractalNear d.dwt q n h' ε r} ≤ ENNReal.ofReal (C / N) := by
  obtain ⟨τ, V, B, hV, hB, hl⟩ := joint_rateG.{u} hM hM1 hwt hK 0 1
  obtain ⟨j₀, hj₀, hrec⟩ := recovered_of_typical (h' := h') hK.pos hB q n h2 hq ε hε
  refine ⟨j₀, hj₀, ?_⟩
  intro j1 j2 hj01 hj12
  obtain ⟨η, hη, hrec⟩ := hrec j1 j2 hj01 hj12
  obtain ⟨C, hC, hl⟩ := hl (testList q n) (testList_gt hq) j2 η hη
  obtain ⟨N₀, hN₀⟩ : ∃ N₀, N₀ = 2 ^ (j2 + 1) * (2 * wt.dec_hi.length + 1) := ⟨_, rfl⟩
  refine ⟨C + N₀, ?_⟩
  intro Ω _ μ R N x A c hc hN1 hG p weighted r hp
  have hμ : IsProbabilityMeasure μ := hG.gaussian.isProbabilityMeasure
  have hNr : (0:ℝ) < N := by exact_mod_cast hN1
  by_cases hN : N₀ ≤ N
  swap
  · refine prob_le_one.trans ?_
    rw [← ENNReal.ofReal_one]
    refine ENNReal.ofReal_le_ofReal ?_
    rw [le_div_iff₀ hNr, one_mul]
    have : (N : ℝ) ≤ N₀ := by exact_mod_cast (not_le.1 hN).le
    linarith
  have hR : R ≠ 0 := fun h0 => by subst h0; exact r.elim0
  have hne : ∀ ω, x ω ≠ [] := by
    intro ω h0; have := congrArg List.length h0; rw [hG.length ω, List.length_nil] at this; omega
  have hne' : ∀ ω, asFloats (x ω) ≠ [] := by
    intro ω h0; apply hne ω; simpa [asFloats] using h0
  choose w hw using fun ω => C05_total (asFloats (x ω)) p (hp.imp id (·.1)) wt j1 (some (j2 : ℝ)) 0 1 weighted hR (hne' ω) one_ne_zero
  have hlong : ∀ ω, (w ω).j2_eff = j2 ∧ j2 ≤ (w ω).wt_coefs.values.length := by
    intro ω
    have h0 := hw ω
    rw [asFloats_sampled (hG.length ω)] at h0
    refine long_enough hR hwt (hp.imp id (·.2)) (by omega) ?_ h0
    refine le_trans (Nat.mul_le_mul_left _ ?_) (hN₀ ▸ hN)
    omega
  have hP : IncrementAnalysis μ wt G c 0 1 N x w := ⟨⟨A, hG⟩, p, j1, some (j2 : ℝ), weighted, hw⟩
  obtain ⟨hτ, hb⟩ := hl hc hP (by
    refine le_trans (le_of_eq ?_) (hN₀ ▸ hN)
    rw [pow_succ]; ring) (fun ω => (hlong ω).2) r
  refine (measure_mono ?_).trans (hb.trans (ENNReal.ofReal_le_ofReal ?_))
  · intro ω hω
    simp only [Set.mem_ofPred_eq] at hω ⊢
    intro hall
    exact hω (hrec hwt r hc (hne ω) (hp.imp id (·.1)) (hw ω) (hlong ω).1 (hlong ω).2 hτ hall)
  · refine div_le_div_of_nonneg_right ?_ hNr.le
    have : (0:ℝ) ≤ N₀ := by positivity
    linarith

/-- **C134, power law signals**: for every accuracy `ε` there is a scale `j₀` such that for every range `j₀ ≤ j1 < j2` the probability that
`mf_analysis_full` does not recover `H`, `zeta(q)`, the log-cumulants, `h(q)` and `D(q)` within `ε` is at most `C / N`, for every length `N` of the signal, `C`
depending on the wavelet, `H`, the moments, `ε` and the range only. -/
theorem C134_power_law {M : ℕ} (hM : VanishingMoments wt.dec_hi M) (hM1 : 1 ≤ M) (hwt : wt.Valid) (ho : OrthonormalBank wt) {H : ℝ}
    (h0 : 0 < H) (h1 : H < 1) (hH : 4 * H - 4 * M < -1) (q : List ℝ) (n : ℕ) (h2 : (2:ℝ) ∈ q) (hq : ∀ e ∈ q, -(1 / 2) < e)
    (ε : ℝ) (hε : 0 < ε) : ∃ j₀ : ℕ, 1 ≤ j₀ ∧ ∀ j1 j2 : ℕ, j₀ ≤ j1 → j1 < j2 → ∃ C : ℝ,
    ∀ {Ω : Type u} [MeasurableSpace Ω] {μ : Measure Ω} {R N : ℕ} {x : Ω → List (Fin R → ℝ)} {A : ℕ → ℝ} {c : ℝ}, 0 < c → 1 ≤ N →
      GaussianArray μ N x (fun n m => A n + A m - c * |(n : ℝ) - m| ^ (2 * H)) →
      ∀ (p : PExp) (weighted : Bool) (r : Fin R), p = .none ∨ (p = .inf ∧ 4 ≤ wt.dec_hi.length) →
      μ {ω | ¬ ∃ d, mfAnalysisFull (asFloats (x ω)) j1 (some j2) 1 0 weighted wt p (some (.ndarray q)) n = .ok d ∧
        MonofractalNear d.dwt q n H ε r} ≤ ENNReal.ofReal (C / N) := by
  obtain ⟨j₀, hj₀, h⟩ := estimates_rate.{u} hM hM1 hwt (powerLaw_kernel hM hM1 hwt ho h0 h1 hH) q n h2 hq ε hε
  refine ⟨j₀, hj₀, fun j1 j2 h3 h4 => ?_⟩
  obtain ⟨C, hC⟩ := h j1 j2 h3 h4
  refine ⟨C, ?_⟩
  intro Ω _ μ R N x A c hc hN hG
  have e : (fun n m : ℕ => A n + A m - c * |(((n : ℤ) - m : ℤ) : ℝ)| ^ (2 * H)) = fun n m : ℕ => A n + A m - c * |(n : ℝ) - m| ^ (2 * H) := by
    funext n m; push_cast; rfl
  refine hC hc hN (A := A) ?_
  rw [e]; exact hG

/-- **C134, end to end**: simulate `N` samples of fractional Brownian motion with `fbm` and analyse them with `mf_analysis_full`: the probability that the
parameter `H` (or any of the other estimates) is not recovered within `ε` is at most `C / N`. -/
theorem C134_fbm {M : ℕ} (hM : VanishingMoments wt.dec_hi M) (hM1 : 1 ≤ M) (hwt : wt.Valid) (ho : OrthonormalBank wt) {H : ℝ}
    (h0 : 0 < H) (h1 : H < 1) (hH : 4 * H - 4 * M < -1) (q : List ℝ) (n : ℕ) (h2 : (2:ℝ) ∈ q) (hq : ∀ e ∈ q, -(1 / 2) < e)
    (ε : ℝ) (hε : 0 < ε) : ∃ j₀ : ℕ, 1 ≤ j₀ ∧ ∀ j1 j2 : ℕ, j₀ ≤ j1 → j1 < j2 → ∃ C : ℝ,
    ∀ {Ω : Type u} [MeasurableSpace Ω] {μ : Measure Ω} {gen : Ω → ℕ → ℝ}, StdNormal μ gen →
    ∀ {N R : ℕ} {sigma : ℝ} {dt : Option ℝ} (z0 : Option (CArr R)), 2 ≤ N → sigma ≠ 0 → (∀ d, dt = some d → 0 ≤ d) → R ≠ 0 →
      ∃ x : Ω → RArr R, Returns (fbm R N H sigma dt "cme" z0) gen x ∧
      ∀ (p : PExp) (weighted : Bool) (r : Fin R), p = .none ∨ (p = .inf ∧ 4 ≤ wt.dec_hi.length) →
      μ {ω | ¬ ∃ d, mfAnalysisFull (asFloats (x ω)) j1 (some j2) 1 0 weighted wt p (some (.ndarray q)) n = .ok d ∧
        MonofractalNear d.dwt q n H ε r} ≤ ENNReal.ofReal (C / N) := by
  obtain ⟨j₀, hj₀, h⟩ := C134_power_law.{u} hM hM1 hwt ho h0 h1 hH q n h2 hq ε hε
  refine ⟨j₀, hj₀, ?_⟩
  intro j1 j2 hj01 hj12
  obtain ⟨C, hC⟩ := h j1 j2 hj01 hj12
  refine ⟨C, ?_⟩
  intro Ω _ μ gen hg N R sigma dt z0 hN2 hs hdt hR
  obtain ⟨x, hx, hG, -⟩ := C85_fbm (R := R) (sigma := sigma) z0 h0 h1.le hN2 hdt hR hg
  have hstep := (fgnDt_eq (by omega : N ≠ 0) hdt).2
  rw [fbm_powerLaw H sigma hstep.le] at hG
  exact ⟨x, hx, fun p weighted r hp => hC (by positivity) (by omega) hG p weighted r hp⟩

/-- **C134, doubling the length**: when simulations of lengths 2, 4, 8, ... of fractional Brownian motion are analysed (each started from the same state
of the generator, or from other normal numbers: independence is not used), then almost surely all the estimates are within `ε` of the truth from some length on. -/
theorem C134_doubling {M : ℕ} (hM : VanishingMoments wt.dec_hi M) (hM1 : 1 ≤ M) (hwt : wt.Valid) (ho : OrthonormalBank wt) {H : ℝ}
    (h0 : 0 < H) (h1 : H < 1) (hH : 4 * H - 4 * M < -1) (q : List ℝ) (n : ℕ) (h2 : (2:ℝ) ∈ q) (hq : ∀ e ∈ q, -(1 / 2) < e)
    (ε : ℝ) (hε : 0 < ε) : ∃ j₀ : ℕ, 1 ≤ j₀ ∧ ∀ j1 j2 : ℕ, j₀ ≤ j1 → j1 < j2 →
    ∀ {Ω : Type u} [MeasurableSpace Ω] {μ : Measure Ω} {gen : ℕ → Ω → ℕ → ℝ}, (∀ k, StdNormal μ (gen k)) →
    ∀ {R : ℕ} {sigma : ℝ} {dt : Option ℝ} (z0 : Option (CArr R)), sigma ≠ 0 → (∀ d, dt = some d → 0 ≤ d) → R ≠ 0 →
      ∃ x : ℕ → Ω → RArr R, (∀ k, Returns (fbm R (2 ^ (k + 1)) H sigma dt "cme" z0) (gen k) (x k)) ∧
      ∀ (p : PExp) (weighted : Bool) (r : Fin R), p = .none ∨ (p = .inf ∧ 4 ≤ wt.dec_hi.length) →
      ∀ᵐ ω ∂μ, ∀ᶠ k in atTop, ∃ d, mfAnalysisFull (asFloats (x k ω)) j1 (some j2) 1 0 weighted wt p (some (.ndarray q)) n = .ok d ∧
        MonofractalNear d.dwt q n H ε r := by
  obtain ⟨j₀, hj₀, h⟩ := C134_fbm.{u} hM hM1 hwt ho h0 h1 hH q n h2 hq ε hε
  refine ⟨j₀, hj₀, ?_⟩
  intro j1 j2 hj01 hj12 Ω _ μ gen hg R sigma dt z0 hs hdt hR
  obtain ⟨C, hC⟩ := h j1 j2 hj01 hj12
  have h2k : ∀ k : ℕ, 2 ≤ 2 ^ (k + 1) := fun k => by rw [pow_succ]; have := Nat.one_le_two_pow (n := k); omega
  choose x hx hb using fun k => hC (hg k) (N := 2 ^ (k + 1)) z0 (h2k k) hs hdt hR
  refine ⟨x, hx, fun p weighted r hp => ?_⟩
  have hμ : IsProbabilityMeasure μ := (hg 0).isProbabilityMeasure
  have := eventually_not_of_rate (μ := μ) (C := |C|) (s := fun k => {ω | ¬ ∃ d, mfAnalysisFull (asFloats (x k ω)) j1 (some j2) 1 0 weighted wt p
    (some (.ndarray q)) n = .ok d ∧ MonofractalNear d.dwt q n H ε r}) (by
      filter_upwards [eventually_ge_atTop 4] with k hk
      refine (hb k p weighted r hp).trans (ENNReal.ofReal_le_ofReal ?_)
      have hk2 : k ^ 2 ≤ 2 ^ (k + 1) := by
        clear hx hb
        induction k, hk using Nat.le_induction with
        | base => norm_num
        | succ m hm ih =>
          rw [pow_succ 2 (m + 1)]
          nlinarith
      have hk0 : (0:ℝ) < (k : ℝ) ^ 2 := by
        have : (0:ℝ) < k := by exact_mod_cast (by omega : 0 < k)
        positivity
      refine (div_le_div_of_nonneg_right (le_abs_self C) (by positivity)).trans ?_
      refine div_le_div_of_nonneg_left (abs_nonneg C) hk0 ?_
      exact_mod_cast hk2)
  filter_upwards [this] with ω hω
  filter_upwards [hω] with k hk
  simpa using hk

/-! The hypotheses are met: for `db2` and every `0 < H < 1`, with `q = [2, 1, -1/4]`. -/
example (H : ℝ) (h0 : 0 < H) (h1 : H < 1) (ε : ℝ) (hε : 0 < ε) : ∃ (j1 : ℕ) (C : ℝ), 1 ≤ j1 ∧ ∃ (Ω : Type) (_ : MeasurableSpace Ω) (μ : Measure Ω)
    (gen : Ω → ℕ → ℝ), StdNormal μ gen ∧ (∀ N, 2 ≤ N → ∃ x : Ω → RArr 2, Returns (fbm 2 N H 1 none "cme" none) gen x ∧
    μ {ω | ¬ ∃ d, mfAnalysisFull (asFloats (x ω)) j1 (some (j1 + 4 : ℕ)) 1 0 true db2 .inf (some (.ndarray [2, 1, -1 / 4])) 3 = .ok d ∧
        MonofractalNear d.dwt [2, 1, -1 / 4] 3 H ε 0} ≤ ENNReal.ofReal (C / N)) ∧
    ∃ x : ℕ → Ω → RArr 2, (∀ k, Returns (fbm 2 (2 ^ (k + 1)) H 1 none "cme" none) gen (x k)) ∧
    ∀ᵐ ω ∂μ, ∀ᶠ k in atTop, ∃ d, mfAnalysisFull (asFloats (x k ω)) j1 (some (j1 + 4 : ℕ)) 1 0 true db2 .inf (some (.ndarray [2, 1, -1 / 4])) 3 = .ok d ∧
        MonofractalNear d.dwt [2, 1, -1 / 4] 3 H ε 0 := by
  obtain ⟨hv, ho, hm⟩ := db2_orthonormal
  have hq : ∀ e ∈ ([2, 1, -1 / 4] : List ℝ), -(1 / 2) < e := by
    intro e he; simp only [List.mem_cons, List.not_mem_nil, or_false] at he; rcases he with rfl | rfl | rfl <;> norm_num
  obtain ⟨a, ha, h⟩ := C134_fbm hm (by norm_num) hv ho h0 h1 (by push_cast; linarith) [2, 1, -1 / 4] 3 (by simp) hq ε hε
  obtain ⟨b, hb, h'⟩ := C134_doubling hm (by norm_num) hv ho h0 h1 (by push_cast; linarith) [2, 1, -1 / 4] 3 (by simp) hq ε hε
  obtain ⟨C, hC⟩ := h (max a b) (max a b + 4) (le_max_left _ _) (by omega)
  obtain ⟨Ω, m, μ, gen, hg⟩ := exists_stdNormal
  have hp : (PExp.inf = .none ∨ (PExp.inf = .inf ∧ 4 ≤ db2.dec_hi.length)) := Or.inr ⟨rfl, by simp [db2]⟩
  obtain ⟨y, hy, hyb⟩ := h' (max a b) (max a b + 4) (le_max_right _ _) (by omega) (gen := fun _ => gen) (fun _ => hg) (R := 2) (sigma := 1) (dt := none) none one_ne_zero (by intro d hd; cases hd) (by norm_num)
  refine ⟨max a b, C, ha.trans (le_max_left _ _), Ω, m, μ, gen, hg, fun N hN => ?_, y, hy, hyb .inf true 0 hp⟩
  obtain ⟨x, hx, hb⟩ := hC hg (N := N) (R := 2) (sigma := 1) (dt := none) none hN one_ne_zero (by intro d hd; cases hd) (by norm_num)
  exact ⟨x, hx, hb .inf true 0 hp⟩

end

end MFA
