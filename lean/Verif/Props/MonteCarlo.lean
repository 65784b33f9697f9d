import Verif.Props.Histories
import Verif.Props.HurstEstimation
import Mathlib.Probability.StrongLaw

/-!
# C118: Monte-Carlo studies

One call of a simulator is repeated, with one random generator; a statistic of each of the arrays is averaged.
-/

namespace MFA

open Classical Finset MeasureTheory ProbabilityTheory Filter Topology

noncomputable section

universe u

/-- The array of shape `(N, R)` with given entries. -/
def arrayOf {N R : ℕ} (v : Fin N × Fin R → ℝ) : List (Fin R → ℝ) := List.ofFn fun n r => v (n, r)

theorem arrayOf_entries {N R : ℕ} (x : List (Fin R → ℝ)) (h : x.length = N) :
    arrayOf (fun p : Fin N × Fin R => (x.getD p.1 fun _ => 0) p.2) = x := by
  subst h
  refine List.ext_getElem (by simp [arrayOf]) fun i h1 h2 => ?_
  funext r
  have := List.getElem_ofFn (f := fun (n : Fin x.length) (r : Fin R) => (x.getD n fun _ => 0) r) (i := i) h1
  exact (congrFun this r).trans (by simp [h2])

theorem entries_arrayOf {N R : ℕ} (v : Fin N × Fin R → ℝ) (p : Fin N × Fin R) :
    ((arrayOf v).getD p.1 fun _ => 0) p.2 = v p := by
  simp [arrayOf]

theorem mem_arrayOf {N R : ℕ} {B : Set (Fin N × Fin R → ℝ)} {P : List (Fin R → ℝ) → Prop} (h : ∀ v, v ∈ B ↔ P (arrayOf v))
    (x : List (Fin R → ℝ)) (hx : x.length = N) : (fun p : Fin N × Fin R => (x.getD p.1 fun _ => 0) p.2) ∈ B ↔ P x := by
  rw [h, arrayOf_entries x hx]

/-- Frequencies of an event in independent, identically distributed trials do not exceed (in the long run) any bound larger than its
probability (its outer measure, if it is not measurable). -/
theorem frequency_le {Ω : Type*} [MeasurableSpace Ω] {μ : Measure Ω} [IsProbabilityMeasure μ] {E : Type*} [MeasurableSpace E]
    {X : ℕ → Ω → E} (hm : ∀ k, AEMeasurable (X k) μ) (hi : iIndepFun X μ) (hd : ∀ k, μ.map (X k) = μ.map (X 0)) {B : Set E}
    {δ δ' : ℝ} (h0 : 0 ≤ δ) (hB : μ.map (X 0) B ≤ ENNReal.ofReal δ) (hδ : δ < δ') :
    ∀ᵐ ω ∂μ, ∀ᶠ K : ℕ in atTop, ((#{k ∈ range K | X k ω ∈ B} : ℕ) : ℝ) ≤ δ' * K := by
  obtain ⟨B', hBB, hB', hle⟩ : ∃ B', B ⊆ B' ∧ MeasurableSet B' ∧ μ.map (X 0) B' ≤ ENNReal.ofReal δ :=
    ⟨_, subset_toMeasurable _ B, measurableSet_toMeasurable _ B, by rwa [measure_toMeasurable]⟩
  obtain ⟨F, hF⟩ : ∃ F : E → ℝ, F = B'.indicator fun _ => 1 := ⟨_, rfl⟩
  have hFm : Measurable F := by rw [hF]; exact measurable_const.indicator hB'
  have hid : ∀ k, IdentDistrib (X k) (X 0) μ μ := fun k => ⟨hm k, hm 0, hd k⟩
  have hF1 : ∀ e, ‖F e‖ ≤ 1 := by
    intro e; rw [hF]; by_cases h : e ∈ B' <;> simp [h]
  have hint : Integrable (F ∘ X 0) μ :=
    Integrable.of_bound (hFm.comp_aemeasurable (hm 0)).aestronglyMeasurable 1 (Eventually.of_forall fun ω => hF1 _)
  have hmean : ∫ ω, (F ∘ X 0) ω ∂μ ≤ δ := by
    have e1 : ∫ ω, (F ∘ X 0) ω ∂μ = ∫ e, F e ∂(μ.map (X 0)) :=
      (integral_map (hm 0) hFm.aestronglyMeasurable).symm
    rw [e1, hF, integral_indicator_const _ hB']
    simp only [smul_eq_mul, mul_one, Measure.real]
    exact ENNReal.toReal_le_of_le_ofReal h0 hle
  have hl := strong_law_ae_real (fun k => F ∘ X k) hint
    (fun i j hij => (hi.indepFun hij).comp hFm hFm) fun k => (hid k).comp hFm
  filter_upwards [hl] with ω hω
  have hlt := (hω.eventually_lt_const (lt_of_le_of_lt hmean hδ)).and (eventually_gt_atTop 0)
  filter_upwards [hlt] with K hK
  obtain ⟨hK, hK0⟩ := hK
  have hKp : (0:ℝ) < K := by exact_mod_cast hK0
  rw [div_lt_iff₀ hKp] at hK
  refine le_trans ?_ hK.le
  rw [card_filter]
  push_cast
  refine sum_le_sum fun k _ => ?_
  by_cases h : X k ω ∈ B
  · simp [h, hF, hBB h]
  · rw [if_neg h]
    simp only [Function.comp, hF]
    exact Set.indicator_nonneg (fun _ _ => zero_le_one) _

variable {Ω : Type u} [MeasurableSpace Ω] {μ : Measure Ω} {g : Ω → ℕ → ℝ}

/-- Repeated calls, with measurability. -/
theorem repeated_calls (c : SimCall) (hc : c.Valid) (hg : StdNormal μ g) :
    ∃ x : ℕ → Ω → RArr c.R, (∀ k ω, ∃ s, c.run (rngBefore (fun _ => c) (g ω) k) = .ok s ∧ s.x = x k ω ∧ (x k ω).length = c.N) ∧
      (∀ k, AEMeasurable (fun ω (p : Fin c.N × Fin c.R) => sample (x k) p.1 p.2 ω) μ) ∧
      iIndepFun (fun (k : ℕ) ω (p : Fin c.N × Fin c.R) => sample (x k) p.1 p.2 ω) μ ∧
      ∀ k, μ.map (fun ω (p : Fin c.N × Fin c.R) => sample (x k) p.1 p.2 ω)
        = μ.map (fun ω (p : Fin c.N × Fin c.R) => sample (x 0) p.1 p.2 ω) := by
  obtain ⟨x, h1, h2, h3⟩ := C117_history (fun _ => c) (fun _ => hc) hg
  have hp := hg.isProbabilityMeasure
  have h0 : Returns c.run g (x 0) := fun ω => by
    obtain ⟨s, a, b, -⟩ := h1 0 ω
    exact ⟨s, a, b⟩
  refine ⟨x, fun k ω => ?_, ?_, h2, fun k => h3 k (x 0) h0⟩
  · obtain ⟨s, a, b, d⟩ := h1 k ω
    exact ⟨s, a, b, b ▸ d⟩
  · have h0' : ∀ k, μ.map (fun ω (p : Fin c.N × Fin c.R) => sample (x k) p.1 p.2 ω)
        = μ.map (fun ω (p : Fin c.N × Fin c.R) => sample (x 0) p.1 p.2 ω) := fun k => h3 k (x 0) h0
    have hm0 : AEMeasurable (fun ω (p : Fin c.N × Fin c.R) => sample (x 0) p.1 p.2 ω) μ := by
      obtain ⟨A, f, hf, hm, -⟩ := hc.draws
      refine aemeasurable_pi_lambda _ fun p => ?_
      have e : (fun ω => sample (x 0) p.1 p.2 ω) = (fun g : ℕ → ℝ => ((f g).getD p.1 fun _ => 0) p.2) ∘ g := by
        funext ω
        obtain ⟨s, a, b⟩ := h0 ω
        obtain ⟨t, a', b', -⟩ := hf (g ω)
        rw [a] at a'; cases a'
        simp only [Function.comp, sample]
        rw [← b, ← b']
      rw [e]
      exact (hm _ _).comp_aemeasurable (aemeasurable_pi_lambda _ fun i => (hg.law _).aemeasurable)
    intro k
    refine AEMeasurable.of_map_ne_zero ?_
    rw [h0' k]
    have := Measure.isProbabilityMeasure_map (μ := μ) hm0
    exact IsProbabilityMeasure.ne_zero _

/-- **C118**: Monte-Carlo averages.  Repeat one admissible call and average any statistic `T` of the arrays that has an expectation: the
averages converge to it, with probability one. -/
theorem C118_averages (c : SimCall) (hc : c.Valid) (hg : StdNormal μ g) :
    ∃ x : ℕ → Ω → RArr c.R, (∀ k ω, ∃ s, c.run (rngBefore (fun _ => c) (g ω) k) = .ok s ∧ s.x = x k ω) ∧
      ∀ T : List (Fin c.R → ℝ) → ℝ, Measurable (fun v : Fin c.N × Fin c.R → ℝ => T (arrayOf v)) → Integrable (fun ω => T (x 0 ω)) μ →
        ∀ᵐ ω ∂μ, Tendsto (fun K : ℕ => (∑ k ∈ range K, T (x k ω)) / K) atTop (𝓝 (∫ ω, T (x 0 ω) ∂μ)) := by
  obtain ⟨x, h1, h2, h3, h4⟩ := repeated_calls c hc hg
  refine ⟨x, fun k ω => ?_, fun T hT hint => ?_⟩
  · obtain ⟨s, a, b, -⟩ := h1 k ω
    exact ⟨s, a, b⟩
  · have e : ∀ k ω, T (x k ω) = ((fun v : Fin c.N × Fin c.R → ℝ => T (arrayOf v)) ∘ fun ω (p : Fin c.N × Fin c.R) => sample (x k) p.1 p.2 ω) ω := by
      intro k ω
      obtain ⟨s, -, -, hl⟩ := h1 k ω
      simp only [Function.comp, sample]
      rw [arrayOf_entries _ hl]
    simp only [e] at hint ⊢
    exact strong_law_ae_real (fun k => (fun v : Fin c.N × Fin c.R → ℝ => T (arrayOf v)) ∘ fun ω (p : Fin c.N × Fin c.R) => sample (x k) p.1 p.2 ω)
      hint (fun i j hij => (h3.indepFun hij).comp hT hT) fun k => IdentDistrib.comp ⟨h2 k, h2 0, h4 k⟩ hT

/-- **C118** on the simulators: with probability one the average over repeated calls of the product of two samples of one realisation
converges to the covariance that was asked for: that of fractional Gaussian noise for `fgn`, of fractional Brownian motion for `fbm`. -/
theorem C118_covariance {N R : ℕ} {H sigma : ℝ} {dt : Option ℝ} (h0 : 0 < H) (h1 : H ≤ 1) (hN : 2 ≤ N) (hdt : ∀ d, dt = some d → 0 ≤ d)
    (hR : R ≠ 0) (hg : StdNormal μ g) :
    (∃ x : ℕ → Ω → RArr R, (∀ k ω, ∃ s, fgn R N H sigma dt "cme" none (rngBefore (fun _ => .fgn R N H sigma dt "cme") (g ω) k) = .ok s ∧
        s.x = x k ω) ∧
      ∀ n < N, ∀ m < N, ∀ r, ∀ᵐ ω ∂μ, Tendsto (fun K : ℕ => (∑ k ∈ range K, ((x k ω).getD n fun _ => 0) r * ((x k ω).getD m fun _ => 0) r) / K)
        atTop (𝓝 (fgnCovariance H sigma (effStep dt N) (n * effStep dt N) (m * effStep dt N)))) ∧
    (∃ x : ℕ → Ω → RArr R, (∀ k ω, ∃ s, fbm R N H sigma dt "cme" none (rngBefore (fun _ => .fbm R N H sigma dt "cme") (g ω) k) = .ok s ∧
        s.x = x k ω) ∧
      ∀ n < N, ∀ m < N, ∀ r, ∀ᵐ ω ∂μ, Tendsto (fun K : ℕ => (∑ k ∈ range K, ((x k ω).getD n fun _ => 0) r * ((x k ω).getD m fun _ => 0) r) / K)
        atTop (𝓝 (fbmCovariance H sigma ((n + 1 : ℕ) * effStep dt N) ((m + 1 : ℕ) * effStep dt N)))) := by
  have hmeas : ∀ n < N, ∀ m < N, ∀ r : Fin R, Measurable fun v : Fin N × Fin R → ℝ =>
      ((arrayOf v).getD n fun _ => 0) r * ((arrayOf v).getD m fun _ => 0) r := by
    intro n hn m hm r
    have e : (fun v : Fin N × Fin R → ℝ => ((arrayOf v).getD n fun _ => 0) r * ((arrayOf v).getD m fun _ => 0) r) =
        fun v => v (⟨n, hn⟩, r) * v (⟨m, hm⟩, r) := by
      funext v
      rw [entries_arrayOf v (⟨n, hn⟩, r), entries_arrayOf v (⟨m, hm⟩, r)]
    rw [e]
    exact (measurable_pi_apply _).mul (measurable_pi_apply _)
  constructor
  · obtain ⟨x, hx, hT⟩ := C118_averages (.fgn R N H sigma dt "cme") ⟨hN, hdt, Or.inl ⟨rfl, h0.le, h1⟩⟩ hg
    obtain ⟨y, hy, hG, -⟩ := C85_fgn (R := R) (sigma := sigma) none h0 h1 hN hdt hR hg
    have e : x 0 = y := by
      funext ω
      obtain ⟨s, a, b⟩ := hx 0 ω
      obtain ⟨t, a', b'⟩ := hy ω
      have : s = t := by
        have := a.symm.trans a'
        injection this
      rw [← b, ← b', this]
    refine ⟨x, hx, fun n hn m hm r => ?_⟩
    have := hT (fun l => (l.getD n fun _ => 0) r * (l.getD m fun _ => 0) r) (hmeas n hn m hm r)
      (by rw [e]; exact hG.integrable n hn m hm r r)
    have hc := (hG.cov n hn m hm r r).trans (if_pos rfl)
    rw [← hc]
    rw [e] at this
    exact this
  · obtain ⟨x, hx, hT⟩ := C118_averages (.fbm R N H sigma dt "cme") ⟨hN, hdt, Or.inl ⟨rfl, h0.le, h1⟩⟩ hg
    obtain ⟨y, hy, hG, -⟩ := C85_fbm (R := R) (sigma := sigma) none h0 h1 hN hdt hR hg
    have e : x 0 = y := by
      funext ω
      obtain ⟨s, a, b⟩ := hx 0 ω
      obtain ⟨t, a', b'⟩ := hy ω
      have : s = t := by
        have := a.symm.trans a'
        injection this
      rw [← b, ← b', this]
    refine ⟨x, hx, fun n hn m hm r => ?_⟩
    have := hT (fun l => (l.getD n fun _ => 0) r * (l.getD m fun _ => 0) r) (hmeas n hn m hm r)
      (by rw [e]; exact hG.integrable n hn m hm r r)
    have hc := (hG.cov n hn m hm r r).trans (if_pos rfl)
    rw [← hc]
    rw [e] at this
    exact this

/-- A Gaussian array transported to the space of its values. -/
theorem GaussianArray.canonical {N R : ℕ} {x : Ω → List (Fin R → ℝ)} {Γ : ℕ → ℕ → ℝ} (h : GaussianArray μ N x Γ)
    (hm : AEMeasurable (fun ω (p : Fin N × Fin R) => sample x p.1 p.2 ω) μ) :
    GaussianArray (μ.map fun ω (p : Fin N × Fin R) => sample x p.1 p.2 ω) N (arrayOf (N := N) (R := R)) Γ := by
  have key : ∀ n (hn : n < N) r, (fun v : Fin N × Fin R → ℝ => ((arrayOf v).getD n fun _ => 0) r) = fun v => v (⟨n, hn⟩, r) := by
    intro n hn r; funext v; exact entries_arrayOf v (⟨n, hn⟩, r)
  refine { length := fun v => by simp [arrayOf], integrable1 := ?_, mean := ?_, integrable := ?_, cov := ?_, gaussian := ?_ }
  · intro n hn r
    rw [key n hn r, integrable_map_measure (measurable_pi_apply _).aestronglyMeasurable hm]
    exact h.integrable1 n hn r
  · intro n hn r
    rw [key n hn r, integral_map hm (measurable_pi_apply _).aestronglyMeasurable]
    exact h.mean n hn r
  · intro n hn m hm' r r'
    have e : (fun v : Fin N × Fin R → ℝ => ((arrayOf v).getD n fun _ => 0) r * ((arrayOf v).getD m fun _ => 0) r') =
        fun v => v (⟨n, hn⟩, r) * v (⟨m, hm'⟩, r') := by
      funext v; rw [entries_arrayOf v (⟨n, hn⟩, r), entries_arrayOf v (⟨m, hm'⟩, r')]
    have hme : Measurable fun v : Fin N × Fin R → ℝ => v (⟨n, hn⟩, r) * v (⟨m, hm'⟩, r') :=
      (measurable_pi_apply _).mul (measurable_pi_apply _)
    rw [e, integrable_map_measure hme.aestronglyMeasurable hm]
    exact h.integrable n hn m hm' r r'
  · intro n hn m hm' r r'
    have e : (fun v : Fin N × Fin R → ℝ => ((arrayOf v).getD n fun _ => 0) r * ((arrayOf v).getD m fun _ => 0) r') =
        fun v => v (⟨n, hn⟩, r) * v (⟨m, hm'⟩, r') := by
      funext v; rw [entries_arrayOf v (⟨n, hn⟩, r), entries_arrayOf v (⟨m, hm'⟩, r')]
    have hme : Measurable fun v : Fin N × Fin R → ℝ => v (⟨n, hn⟩, r) * v (⟨m, hm'⟩, r') :=
      (measurable_pi_apply _).mul (measurable_pi_apply _)
    rw [e, integral_map hm hme.aestronglyMeasurable]
    exact h.cov n hn m hm' r r'
  · have e : (fun (v : Fin N × Fin R → ℝ) (p : Fin N × Fin R) => sample arrayOf p.1 p.2 v) = id := by
      funext v p; exact entries_arrayOf v p
    rw [e]
    have := h.gaussian.isGaussian_map
    exact ⟨by rw [Measure.map_id]; exact this⟩

/-- **C118, a Monte-Carlo study of the estimators**: repeat `fbm` and pass each array to `mf_analysis_full`.  For all `ε`, `δ` there is a
scale `j₀` such that for every range `j₀ ≤ j1 < j2` and long enough signals, with probability one, the proportion of the runs in which
the call fails or one of the estimates is more than `ε` away from the truth is at most `δ` from some number of runs on. -/
theorem C118_reliability {wt : Wavelet} {M : ℕ} (hM : VanishingMoments wt.dec_hi M) (hM1 : 1 ≤ M) (hwt : wt.Valid) (ho : OrthonormalBank wt)
    {H : ℝ} (h0 : 0 < H) (h1 : H < 1) (hH : 4 * H - 4 * M < -1) (q : List ℝ) (n : ℕ) (h2 : (2:ℝ) ∈ q) (hq : ∀ e ∈ q, -(1 / 2) < e)
    (ε δ : ℝ) (hε : 0 < ε) (hδ : 0 < δ) : ∃ j₀ : ℕ, 1 ≤ j₀ ∧ ∀ j1 j2 : ℕ, j₀ ≤ j1 → j1 < j2 → ∃ N₀ : ℕ,
    ∀ {Ω : Type u} [MeasurableSpace Ω] {μ : Measure Ω} {gen : Ω → ℕ → ℝ}, StdNormal μ gen →
    ∀ {N R : ℕ} {sigma : ℝ} {dt : Option ℝ}, N₀ ≤ N → sigma ≠ 0 → (∀ d, dt = some d → 0 ≤ d) → R ≠ 0 →
      ∃ x : ℕ → Ω → RArr R,
      (∀ k ω, ∃ s, fbm R N H sigma dt "cme" none (rngBefore (fun _ => .fbm R N H sigma dt "cme") (gen ω) k) = .ok s ∧ s.x = x k ω) ∧
      ∀ (p : PExp) (weighted : Bool) (r : Fin R), p = .none ∨ (p = .inf ∧ 4 ≤ wt.dec_hi.length) →
      ∀ᵐ ω ∂μ, ∀ᶠ K : ℕ in atTop,
        ((#{k ∈ range K | ¬ ∃ d, mfAnalysisFull (asFloats (x k ω)) j1 (some j2) 1 0 weighted wt p (some (.ndarray q)) n = .ok d ∧
          MonofractalNear d.dwt q n H ε r} : ℕ) : ℝ) ≤ δ * K := by
  obtain ⟨j₀, hj₀, h⟩ := C101_power_law.{0} hM hM1 hwt ho h0 h1 hH q n h2 hq ε (δ / 2) hε (by positivity)
  refine ⟨j₀, hj₀, ?_⟩
  intro j1 j2 hj01 hj12
  obtain ⟨N₀, hN₀⟩ := h j1 j2 hj01 hj12
  refine ⟨max N₀ 2, ?_⟩
  intro Ω _ μ gen hg N R sigma dt hN hs hdt hR
  have hprob := hg.isProbabilityMeasure
  have hN2 := (le_max_right _ _).trans hN
  obtain ⟨x, hx, hm, hi, hd⟩ := repeated_calls (.fbm R N H sigma dt "cme") ⟨hN2, hdt, Or.inl ⟨rfl, h0.le, h1.le⟩⟩ hg
  obtain ⟨y, hy, hG, -⟩ := C85_fbm (R := R) (sigma := sigma) none h0 h1.le hN2 hdt hR hg
  have e : x 0 = y := by
    funext ω
    obtain ⟨s, a, b, -⟩ := hx 0 ω
    obtain ⟨t, a', b'⟩ := hy ω
    have : s = t := by
      have := a.symm.trans a'
      injection this
    rw [← b, ← b', this]
  have hstep := (fgnDt_eq (by omega : N ≠ 0) hdt).2
  rw [fbm_powerLaw H sigma hstep.le, ← e] at hG
  refine ⟨x, fun k ω => ?_, fun p weighted r hp => ?_⟩
  · obtain ⟨s, a, b, -⟩ := hx k ω
    exact ⟨s, a, b⟩
  · have hB := hN₀ (by positivity) ((le_max_left _ _).trans hN) (hG.canonical (hm 0)) p weighted r hp
    obtain ⟨B, hBm, hB⟩ : ∃ B : Set (Fin N × Fin R → ℝ), (∀ v, v ∈ B ↔ ¬ ∃ d, mfAnalysisFull (asFloats (arrayOf v)) j1 (some j2) 1 0
        weighted wt p (some (.ndarray q)) n = .ok d ∧ MonofractalNear d.dwt q n H ε r) ∧
        μ.map (fun ω (p : Fin N × Fin R) => sample (x 0) p.1 p.2 ω) B ≤ ENNReal.ofReal (δ / 2) := ⟨_, fun v => Iff.rfl, hB⟩
    have := frequency_le hm hi hd (by positivity) hB (by linarith : δ / 2 < δ)
    filter_upwards [this] with ω hω
    filter_upwards [hω] with K hK
    refine le_trans (le_of_eq ?_) hK
    congr 2
    refine filter_congr fun k _ => ?_
    obtain ⟨s, -, -, hl⟩ := hx k ω
    exact (mem_arrayOf (P := fun l => ¬ ∃ d, mfAnalysisFull (asFloats l) j1 (some j2) 1 0
        weighted wt p (some (.ndarray q)) n = .ok d ∧ MonofractalNear d.dwt q n H ε r) hBm (x k ω) hl).symm

/-! The hypotheses are met: for `db2`, every `0 < H < 1` and a generator of standard normal draws, in at most one run out of a hundred an
estimate is more than 1/10 away from the truth. -/
example (H : ℝ) (h0 : 0 < H) (h1 : H < 1) : ∃ j1 j2 N : ℕ, 1 ≤ j1 ∧ j1 < j2 ∧
    ∃ (Ω : Type) (_ : MeasurableSpace Ω) (μ : Measure Ω) (gen : Ω → ℕ → ℝ) (x : ℕ → Ω → RArr 2), StdNormal μ gen ∧
    (∀ k ω, ∃ s, fbm 2 N H 1 none "cme" none (rngBefore (fun _ => .fbm 2 N H 1 none "cme") (gen ω) k) = .ok s ∧ s.x = x k ω) ∧
    ∀ᵐ ω ∂μ, ∀ᶠ K : ℕ in atTop,
      ((#{k ∈ range K | ¬ ∃ d, mfAnalysisFull (asFloats (x k ω)) j1 (some j2) 1 0 true db2 .inf (some (.ndarray [2, 1, -1 / 4])) 3 = .ok d ∧
        MonofractalNear d.dwt [2, 1, -1 / 4] 3 H (1 / 10) 0} : ℕ) : ℝ) ≤ 1 / 100 * K := by
  obtain ⟨hv, ho, hm⟩ := db2_orthonormal
  obtain ⟨j₀, hj₀, h⟩ := C118_reliability hm (by norm_num) hv ho h0 h1 (by push_cast; linarith) [2, 1, -1 / 4] 3 (by simp)
    (by intro e he; simp only [List.mem_cons, List.not_mem_nil, or_false] at he; rcases he with rfl | rfl | rfl <;> norm_num)
    (1 / 10) (1 / 100) (by norm_num) (by norm_num)
  obtain ⟨N₀, hN₀⟩ := h j₀ (j₀ + 1) le_rfl (by omega)
  obtain ⟨Ω, m, μ, gen, hg⟩ := exists_stdNormal
  obtain ⟨x, hx, hb⟩ := hN₀ hg (R := 2) (sigma := 1) (dt := none) le_rfl one_ne_zero (by intro d hd; cases hd) (by norm_num)
  exact ⟨j₀, j₀ + 1, N₀, hj₀, by omega, Ω, m, μ, gen, x, hg, hx, hb .inf true 0 (Or.inr ⟨rfl, by simp [db2]⟩)⟩

end

end MFA
