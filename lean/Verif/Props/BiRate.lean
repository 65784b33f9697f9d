import Verif.Props.BiConsistency

/-!
# Property C142: the probability that a bivariate analysis goes wrong decreases at least as the inverse of the length of the signals
-/

namespace MFA

universe u

open Classical Finset MeasureTheory ProbabilityTheory Filter Topology

noncomputable section

variable {wt : Wavelet}

/-- **C142, power law signals**: for every accuracy `ε` there is a scale `j₀` such that for every range `j₀ ≤ j1 < j2` the probability that
`bivariate_analysis_full` does not return, or that one of the exponents `zeta(e1, e2)` or log-cumulants of orders `(a, b)` that it computes
from the coefficients is not within `ε` of its value for monofractal signals, is at most `C / N`, for every length `N` of the two signals. `C`
does not depend on the signals, nor on the weighting. -/
theorem C142_increments {M : ℕ} (hM : VanishingMoments wt.dec_hi M) (hM1 : 1 ≤ M) (hwt : wt.Valid) (ho : OrthonormalBank wt)
    (hF : 4 ≤ wt.dec_hi.length) {H : ℝ} (h0 : 0 < H) (h1 : H < 1) (hH : 4 * H - 4 * M < -1) {R : ℕ} {α β : Fin R → ℝ} (hα : α ≠ 0)
    (hβ : β ≠ 0) (q1 q2 : List ℝ) (n : ℕ)
    (hn1 : q1.Nodup) (hn2 : q2.Nodup) (hq1 : (0:ℝ) ∈ q1 ∧ (1:ℝ) ∈ q1 ∧ (2:ℝ) ∈ q1) (hq2 : (0:ℝ) ∈ q2 ∧ (1:ℝ) ∈ q2 ∧ (2:ℝ) ∈ q2)
    (hl1 : ∀ e ∈ q1, -(1 / 4) < e) (hl2 : ∀ e ∈ q2, -(1 / 4) < e) (hn : 2 ≤ n) (ε : ℝ) (hε : 0 < ε) :
    ∃ j₀ : ℕ, 1 ≤ j₀ ∧ ∀ j1 j2 : ℕ, j₀ ≤ j1 → j1 < j2 → ∃ C : ℝ,
    ∀ {Ω : Type u} [MeasurableSpace Ω] {μ : Measure Ω} {N : ℕ} {x : Ω → List (Fin R → ℝ)} {A : ℕ → ℝ} {c : ℝ}, 0 < c → 1 ≤ N →
      GaussianArray μ N x (fun n m => A n + A m - c * |(n : ℝ) - m| ^ (2 * H)) → ∀ weighted : Bool,
      μ {ω | ¬ ∃ d l, bivariateAnalysisFull (asFloats (mixture α (x ω))) (asFloats (mixture β (x ω))) j1 (some (j2 : ℝ)) 1 0 weighted wt
          .inf (some (.ndarray q1)) (some (.ndarray q2)) n = .ok (d, l) ∧ BiMonofractalNear d q1 q2 n H ε} ≤ ENNReal.ofReal (C / N) := by
  obtain ⟨j₀, hj₀, h⟩ := bi_estimates_rate.{u} hM hM1 hwt hF (powerLaw_kernel hM hM1 hwt ho h0 h1 hH) hα hβ q1 q2 n hn1 hn2 hq1 hq2 hl1 hl2 hn ε hε
  refine ⟨j₀, hj₀, fun j1 j2 h3 h4 => ?_⟩
  obtain ⟨C, hC⟩ := h j1 j2 h3 h4
  refine ⟨C, ?_⟩
  intro Ω _ μ N x A c hc hN hG weighted
  have e : (fun n m : ℕ => A n + A m - c * |(((n : ℤ) - m : ℤ) : ℝ)| ^ (2 * H)) = fun n m : ℕ => A n + A m - c * |(n : ℝ) - m| ^ (2 * H) := by
    funext n m; push_cast; rfl
  refine hC hc hN (A := A) ?_ weighted
  rw [e]; exact hG

/-- **C142, end to end**: the two signals are combinations of the `R` motions returned by one call of `fbm`; `C` does not depend on the length `N`,
nor on `sigma`, `dt` and the generator. -/
theorem C142_fbm {M : ℕ} (hM : VanishingMoments wt.dec_hi M) (hM1 : 1 ≤ M) (hwt : wt.Valid) (ho : OrthonormalBank wt)
    (hF : 4 ≤ wt.dec_hi.length) {H : ℝ} (h0 : 0 < H) (h1 : H < 1) (hH : 4 * H - 4 * M < -1) {R : ℕ} {α β : Fin R → ℝ} (hα : α ≠ 0)
    (hβ : β ≠ 0) (q1 q2 : List ℝ) (n : ℕ)
    (hn1 : q1.Nodup) (hn2 : q2.Nodup) (hq1 : (0:ℝ) ∈ q1 ∧ (1:ℝ) ∈ q1 ∧ (2:ℝ) ∈ q1) (hq2 : (0:ℝ) ∈ q2 ∧ (1:ℝ) ∈ q2 ∧ (2:ℝ) ∈ q2)
    (hl1 : ∀ e ∈ q1, -(1 / 4) < e) (hl2 : ∀ e ∈ q2, -(1 / 4) < e) (hn : 2 ≤ n) (ε : ℝ) (hε : 0 < ε) :
    ∃ j₀ : ℕ, 1 ≤ j₀ ∧ ∀ j1 j2 : ℕ, j₀ ≤ j1 → j1 < j2 → ∃ C : ℝ,
    ∀ {Ω : Type u} [MeasurableSpace Ω] {μ : Measure Ω} {gen : Ω → ℕ → ℝ}, StdNormal μ gen →
    ∀ {N : ℕ} {sigma : ℝ} {dt : Option ℝ} (z0 : Option (CArr R)), 2 ≤ N → sigma ≠ 0 → (∀ d, dt = some d → 0 ≤ d) →
      ∃ x : Ω → RArr R, Returns (fbm R N H sigma dt "cme" z0) gen x ∧ ∀ weighted : Bool,
      μ {ω | ¬ ∃ d l, bivariateAnalysisFull (asFloats (mixture α (x ω))) (asFloats (mixture β (x ω))) j1 (some (j2 : ℝ)) 1 0 weighted wt
          .inf (some (.ndarray q1)) (some (.ndarray q2)) n = .ok (d, l) ∧ BiMonofractalNear d q1 q2 n H ε} ≤ ENNReal.ofReal (C / N) := by
  obtain ⟨j₀, hj₀, h⟩ := bi_estimates_rate.{u} hM hM1 hwt hF (powerLaw_kernel hM hM1 hwt ho h0 h1 hH) hα hβ q1 q2 n hn1 hn2 hq1 hq2 hl1 hl2 hn
    ε hε
  refine ⟨j₀, hj₀, ?_⟩
  intro j1 j2 hj01 hj12
  obtain ⟨C, hC⟩ := h j1 j2 hj01 hj12
  refine ⟨C, ?_⟩
  intro Ω _ μ gen hg N sigma dt z0 hN2 hs hdt
  have hR : R ≠ 0 := by
    rintro rfl; exact hα (Subsingleton.elim _ _)
  obtain ⟨x, hx, hG, -⟩ := C85_fbm (R := R) (sigma := sigma) z0 h0 h1.le hN2 hdt hR hg
  have hstep := (fgnDt_eq (by omega : N ≠ 0) hdt).2
  rw [fbm_powerLaw H sigma hstep.le] at hG
  refine ⟨x, hx, fun weighted => ?_⟩
  refine hC (A := fun n : ℕ => sigma ^ 2 / 2 * |((n + 1 : ℕ) : ℝ) * effStep dt N| ^ (2 * H))
    (c := sigma ^ 2 / 2 * effStep dt N ^ (2 * H)) (by positivity) (by omega) ?_ weighted
  convert hG using 7
  push_cast; rfl

/-- **C142 for noise** returned by `fgn`; the exponent is `H - 1`. -/
theorem C142_fgn {M : ℕ} (hM : VanishingMoments wt.dec_hi M) (hM1 : 1 ≤ M) (hwt : wt.Valid) (ho : OrthonormalBank wt)
    (hF : 4 ≤ wt.dec_hi.length) {H : ℝ} (h0 : 0 < H) (h1 : H < 1) (hr : 1 / 2 ≤ H ∨ RegularWavelet wt) {R : ℕ} {α β : Fin R → ℝ} (hα : α ≠ 0)
    (hβ : β ≠ 0) (q1 q2 : List ℝ) (n : ℕ)
    (hn1 : q1.Nodup) (hn2 : q2.Nodup) (hq1 : (0:ℝ) ∈ q1 ∧ (1:ℝ) ∈ q1 ∧ (2:ℝ) ∈ q1) (hq2 : (0:ℝ) ∈ q2 ∧ (1:ℝ) ∈ q2 ∧ (2:ℝ) ∈ q2)
    (hl1 : ∀ e ∈ q1, -(1 / 4) < e) (hl2 : ∀ e ∈ q2, -(1 / 4) < e) (hn : 2 ≤ n) (ε : ℝ) (hε : 0 < ε) :
    ∃ j₀ : ℕ, 1 ≤ j₀ ∧ ∀ j1 j2 : ℕ, j₀ ≤ j1 → j1 < j2 → ∃ C : ℝ,
    ∀ {Ω : Type u} [MeasurableSpace Ω] {μ : Measure Ω} {gen : Ω → ℕ → ℝ}, StdNormal μ gen →
    ∀ {N : ℕ} {sigma : ℝ} {dt : Option ℝ} (z0 : Option (CArr R)), 2 ≤ N → sigma ≠ 0 → (∀ d, dt = some d → 0 ≤ d) →
      ∃ x : Ω → RArr R, Returns (fgn R N H sigma dt "cme" z0) gen x ∧ ∀ weighted : Bool,
      μ {ω | ¬ ∃ d l, bivariateAnalysisFull (asFloats (mixture α (x ω))) (asFloats (mixture β (x ω))) j1 (some (j2 : ℝ)) 1 0 weighted wt
          .inf (some (.ndarray q1)) (some (.ndarray q2)) n = .ok (d, l) ∧ BiMonofractalNear d q1 q2 n (H - 1) ε} ≤ ENNReal.ofReal (C / N) := by
  obtain ⟨b, hK⟩ := noise_kernel hM hM1 hwt ho h0 h1 hr
  obtain ⟨j₀, hj₀, h⟩ := bi_estimates_rate.{u} hM hM1 hwt hF hK hα hβ q1 q2 n hn1 hn2 hq1 hq2 hl1 hl2 hn ε hε
  refine ⟨j₀, hj₀, ?_⟩
  intro j1 j2 hj01 hj12
  obtain ⟨C, hC⟩ := h j1 j2 hj01 hj12
  refine ⟨C, ?_⟩
  intro Ω _ μ gen hg N sigma dt z0 hN2 hs hdt
  have hR : R ≠ 0 := by
    rintro rfl; exact hα (Subsingleton.elim _ _)
  obtain ⟨x, hx, hG, -⟩ := C85_fgn (R := R) (sigma := sigma) z0 h0 h1.le hN2 hdt hR hg
  have hstep := (fgnDt_eq (by omega : N ≠ 0) hdt).2
  refine ⟨x, hx, fun weighted => ?_⟩
  have e : (fun n m : ℕ => fgnCovariance H sigma (effStep dt N) (n * effStep dt N) (m * effStep dt N)) =
      fun n m : ℕ => (0:ℝ) + 0 - sigma ^ 2 * effStep dt N ^ (2 * H) * -noiseKernel (2 * H) ((n : ℤ) - m) := by
    funext n m
    rw [fgn_noiseKernel H sigma hstep.le]
    ring
  rw [e] at hG
  exact hC (A := fun _ => 0) (by positivity) (by omega) hG weighted

/-- **C142, doubling the length**: when simulations of lengths 2, 4, 8, ... are analysed, from whatever normal random numbers (independence of
the simulations is not used), almost surely all the bivariate estimates are within `ε` of the truth from some length on. -/
theorem C142_doubling {M : ℕ} (hM : VanishingMoments wt.dec_hi M) (hM1 : 1 ≤ M) (hwt : wt.Valid) (ho : OrthonormalBank wt)
    (hF : 4 ≤ wt.dec_hi.length) {H : ℝ} (h0 : 0 < H) (h1 : H < 1) (hH : 4 * H - 4 * M < -1) {R : ℕ} {α β : Fin R → ℝ} (hα : α ≠ 0)
    (hβ : β ≠ 0) (q1 q2 : List ℝ) (n : ℕ)
    (hn1 : q1.Nodup) (hn2 : q2.Nodup) (hq1 : (0:ℝ) ∈ q1 ∧ (1:ℝ) ∈ q1 ∧ (2:ℝ) ∈ q1) (hq2 : (0:ℝ) ∈ q2 ∧ (1:ℝ) ∈ q2 ∧ (2:ℝ) ∈ q2)
    (hl1 : ∀ e ∈ q1, -(1 / 4) < e) (hl2 : ∀ e ∈ q2, -(1 / 4) < e) (hn : 2 ≤ n) (ε : ℝ) (hε : 0 < ε) :
    ∃ j₀ : ℕ, 1 ≤ j₀ ∧ ∀ j1 j2 : ℕ, j₀ ≤ j1 → j1 < j2 →
    ∀ {Ω : Type u} [MeasurableSpace Ω] {μ : Measure Ω} {gen : ℕ → Ω → ℕ → ℝ}, (∀ k, StdNormal μ (gen k)) →
    ∀ {sigma : ℝ} {dt : Option ℝ} (z0 : Option (CArr R)), sigma ≠ 0 → (∀ d, dt = some d → 0 ≤ d) →
      ∃ x : ℕ → Ω → RArr R, (∀ k, Returns (fbm R (2 ^ (k + 1)) H sigma dt "cme" z0) (gen k) (x k)) ∧ ∀ weighted : Bool,
      ∀ᵐ ω ∂μ, ∀ᶠ k in atTop, ∃ d l, bivariateAnalysisFull (asFloats (mixture α (x k ω))) (asFloats (mixture β (x k ω))) j1 (some (j2 : ℝ)) 1 0
          weighted wt .inf (some (.ndarray q1)) (some (.ndarray q2)) n = .ok (d, l) ∧ BiMonofractalNear d q1 q2 n H ε := by
  obtain ⟨j₀, hj₀, h⟩ := C142_fbm.{u} hM hM1 hwt ho hF h0 h1 hH hα hβ q1 q2 n hn1 hn2 hq1 hq2 hl1 hl2 hn ε hε
  refine ⟨j₀, hj₀, ?_⟩
  intro j1 j2 hj01 hj12 Ω _ μ gen hg sigma dt z0 hs hdt
  obtain ⟨C, hC⟩ := h j1 j2 hj01 hj12
  have h2k : ∀ k : ℕ, 2 ≤ 2 ^ (k + 1) := fun k => by rw [pow_succ]; have := Nat.one_le_two_pow (n := k); omega
  choose x hx hb using fun k => hC (hg k) (N := 2 ^ (k + 1)) z0 (h2k k) hs hdt
  refine ⟨x, hx, fun weighted => ?_⟩
  have hμ : IsProbabilityMeasure μ := (hg 0).isProbabilityMeasure
  have := eventually_not_of_rate (μ := μ) (C := |C|) (s := fun k => {ω | ¬ ∃ d l, bivariateAnalysisFull (asFloats (mixture α (x k ω)))
    (asFloats (mixture β (x k ω))) j1 (some (j2 : ℝ)) 1 0 weighted wt .inf (some (.ndarray q1)) (some (.ndarray q2)) n = .ok (d, l) ∧
    BiMonofractalNear d q1 q2 n H ε}) (by
      filter_upwards [eventually_ge_atTop 4] with k hk
      refine (hb k weighted).trans (ENNReal.ofReal_le_ofReal ?_)
      have hk2 : k ^ 2 ≤ 2 ^ (k + 1) := by
        clear hx hb
        induction k, hk using Nat.le_induction with
        | base => norm_num
        | succ m hm ih =>
          rw [pow_succ 2 (m + 1)]
          nlinarith
      have hk0 : (0:ℝ) < (k : ℝ) ^ 2 := by
        have : (0:ℝ) < k := by exact_mod_cast (by omega : 0 < k)
        positivity
      refine (div_le_div_of_nonneg_right (le_abs_self C) (by positivity)).trans ?_
      refine div_le_div_of_nonneg_left (abs_nonneg C) hk0 ?_
      exact_mod_cast hk2)
  filter_upwards [this] with ω hω
  filter_upwards [hω] with k hk
  simpa using hk

/-! The hypotheses are met: with `db2`, two columns, every `0 < H < 1`, and every correlation `ρ` between the two signals. -/
example (H : ℝ) (h0 : 0 < H) (h1 : H < 1) (ρ : ℝ) (ε : ℝ) (hε : 0 < ε) : ∃ (j1 : ℕ) (C : ℝ), 1 ≤ j1 ∧
    ∃ (Ω : Type) (_ : MeasurableSpace Ω) (μ : Measure Ω) (gen : Ω → ℕ → ℝ), StdNormal μ gen ∧
    (∀ N : ℕ, 2 ≤ N → ∃ x : Ω → RArr 2, Returns (fbm 2 N H 1 none "cme" none) gen x ∧
    μ {ω | ¬ ∃ d l, bivariateAnalysisFull (asFloats (mixture ![1, 0] (x ω))) (asFloats (mixture ![ρ, √(1 - ρ ^ 2)] (x ω))) j1
        (some ((j1 + 3 : ℕ) : ℝ)) 1 0 true db2 .inf (some (.ndarray [0, 1, 2])) (some (.ndarray [0, 1, 2, -1 / 5])) 3 = .ok (d, l) ∧
      BiMonofractalNear d [0, 1, 2] [0, 1, 2, -1 / 5] 3 H ε} ≤ ENNReal.ofReal (C / N)) ∧
    ∃ x : ℕ → Ω → RArr 2, (∀ k, Returns (fbm 2 (2 ^ (k + 1)) H 1 none "cme" none) gen (x k)) ∧
    ∀ᵐ ω ∂μ, ∀ᶠ k in atTop, ∃ d l, bivariateAnalysisFull (asFloats (mixture ![1, 0] (x k ω))) (asFloats (mixture ![ρ, √(1 - ρ ^ 2)] (x k ω))) j1
        (some ((j1 + 3 : ℕ) : ℝ)) 1 0 true db2 .inf (some (.ndarray [0, 1, 2])) (some (.ndarray [0, 1, 2, -1 / 5])) 3 = .ok (d, l) ∧
      BiMonofractalNear d [0, 1, 2] [0, 1, 2, -1 / 5] 3 H ε := by
  obtain ⟨hv, ho, hm⟩ := db2_orthonormal
  have hβ : (![ρ, √(1 - ρ ^ 2)] : Fin 2 → ℝ) ≠ 0 := by
    intro h
    have a1 := congrFun h 0
    have a2 := congrFun h 1
    simp only [Matrix.cons_val_zero, Matrix.cons_val_one, Pi.zero_apply] at a1 a2
    rw [a1] at a2
    norm_num at a2
  have hα : (![1, 0] : Fin 2 → ℝ) ≠ 0 := fun h => by have := congrFun h 0; simp at this
  have hl1 : ∀ e ∈ ([0, 1, 2] : List ℝ), -(1 / 4) < e := by
    intro e he; simp only [List.mem_cons, List.not_mem_nil, or_false] at he; rcases he with rfl | rfl | rfl <;> norm_num
  have hl2 : ∀ e ∈ ([0, 1, 2, -1 / 5] : List ℝ), -(1 / 4) < e := by
    intro e he; simp only [List.mem_cons, List.not_mem_nil, or_false] at he; rcases he with rfl | rfl | rfl | rfl <;> norm_num
  obtain ⟨a, ha, h⟩ := C142_fbm hm (by norm_num) hv ho (by simp [db2]) h0 h1 (by push_cast; linarith) hα hβ [0, 1, 2] [0, 1, 2, -1 / 5] 3
    (by norm_num) (by norm_num) (by norm_num) (by norm_num) hl1 hl2 (by norm_num) ε hε
  obtain ⟨b, hb, h'⟩ := C142_doubling hm (by norm_num) hv ho (by simp [db2]) h0 h1 (by push_cast; linarith) hα hβ [0, 1, 2] [0, 1, 2, -1 / 5] 3
    (by norm_num) (by norm_num) (by norm_num) (by norm_num) hl1 hl2 (by norm_num) ε hε
  obtain ⟨C, hC⟩ := h (max a b) (max a b + 3) (le_max_left _ _) (by omega)
  obtain ⟨Ω, m, μ, gen, hg⟩ := exists_stdNormal
  obtain ⟨y, hy, hyb⟩ := h' (max a b) (max a b + 3) (le_max_right _ _) (by omega) (gen := fun _ => gen) (fun _ => hg) (sigma := 1) (dt := none)
    none one_ne_zero (by intro d hd; cases hd)
  refine ⟨max a b, C, ha.trans (le_max_left _ _), Ω, m, μ, gen, hg, fun N hN => ?_, y, hy, hyb true⟩
  obtain ⟨x, hx, hb⟩ := hC hg (N := N) (sigma := 1) (dt := none) none hN one_ne_zero (by intro d hd; cases hd)
  exact ⟨x, hx, hb true⟩

end

end MFA
