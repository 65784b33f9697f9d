import Verif.Lemmas.BiTypical
import Verif.Props.NoiseEstimation
import Verif.Props.Rate

/-!
# Property C137: `bivariate_analysis_full` recovers the exponents of two correlated monofractal signals
-/

namespace MFA

universe u

open Classical Finset MeasureTheory ProbabilityTheory Filter Topology

noncomputable section

variable {wt : Wavelet}

/-- All the estimates of a bivariate analysis are within `ε` of those of two monofractal signals with the same exponent `H`:
`zeta(e1, e2) = (e1 + e2) H`, `c_{10} = c_{01} = H`, and all the other log-cumulants are zero, among them the joint `c_{11}`. -/
def BiMonofractalNear (v : MFBiVar 1) (q1 q2 : List ℝ) (n : ℕ) (H ε : ℝ) : Prop :=
  (∀ (i k : ℕ) (e1 e2 : ℝ), q1[i]? = some e1 → q2[k]? = some e2 →
    ∃ z, (v.structure_.zeta[i]?.bind fun l => l[k]?) = some z ∧ Near z ((e1 + e2) * H) ε) ∧
  ∀ a b : ℕ, a ≤ n → b ≤ n → Near (v.cumulants.log_cumulants a b) (if a + b = 1 then H else 0) ε

/-- A continuous function of one variable. -/
theorem eventually_near {f : ℝ → ℝ} {m : ℝ} (hf : ContinuousAt f m) {ε : ℝ} (hε : 0 < ε) :
    ∀ᶠ η in 𝓝[>] (0:ℝ), ∀ t, |t - m| < η → |f t - f m| < ε := by
  obtain ⟨η₀, h0, h⟩ := Metric.continuousAt_iff.1 hf ε hε
  filter_upwards [Ioo_mem_nhdsGT h0] with η hη t ht
  exact h (x := t) (by rw [Real.dist_eq]; exact ht.trans hη.2)

/-- A product. -/
theorem eventually_cov {a b c : ℝ} {ε : ℝ} (hε : 0 < ε) : ∀ᶠ η in 𝓝[>] (0:ℝ), ∀ x y z : ℝ, |x - a| < η → |y - b| < η → |z - c| < η →
    |x - y * z - (a - b * c)| < ε := by
  have hc : ContinuousAt (fun p : ℝ × ℝ × ℝ => p.1 - p.2.1 * p.2.2) (a, b, c) := by fun_prop
  obtain ⟨η₀, h0, h⟩ := Metric.continuousAt_iff.1 hc ε hε
  filter_upwards [Ioo_mem_nhdsGT h0] with η hη x y z hx hy hz
  have := h (x := (x, y, z)) (by
    simp only [Prod.dist_eq, Real.dist_eq, max_lt_iff]
    exact ⟨hx.trans hη.2, hy.trans hη.2, hz.trans hη.2⟩)
  rw [Real.dist_eq] at this
  exact this

theorem unit_vector {R : ℕ} {α : Fin R → ℝ} (h : α ≠ 0) : ∑ r, (α r / √(∑ r, α r ^ 2)) ^ 2 = 1 := by
  have h1 := sum_sq_pos h
  simp only [div_pow, Real.sq_sqrt h1.le]
  rw [← sum_div, div_self h1.ne']

/-- The estimates are recovered for every outcome for which the joint moments are typical, and the univariate estimates recovered. -/
theorem bi_recovered_at (hwt : wt.Valid) (hF : 4 ≤ wt.dec_hi.length) {G : ℤ → ℝ}
    {h b : ℝ} (hK : ScalingKernel wt G h b) {τ : ℕ → ℝ} {V B : ℝ} (hB : 0 ≤ B)
    (hτ : ∀ j : ℕ, 1 ≤ j → 0 < τ j ∧ |Real.logb 2 (τ j) - (Real.logb 2 V + j * coefExponent h 0 1)| ≤ B * (2:ℝ) ^ (-(2 * b * j)))
    {R : ℕ} {α β : Fin R → ℝ} (hα : α ≠ 0) (hβ : β ≠ 0) (q1 q2 : List ℝ) (n : ℕ)
    (hn1 : q1.Nodup) (hn2 : q2.Nodup) (hq1 : (0:ℝ) ∈ q1 ∧ (1:ℝ) ∈ q1 ∧ (2:ℝ) ∈ q1) (hq2 : (0:ℝ) ∈ q2 ∧ (1:ℝ) ∈ q2 ∧ (2:ℝ) ∈ q2)
    (hl1 : ∀ e ∈ q1, -(1 / 4) < e) (hl2 : ∀ e ∈ q2, -(1 / 4) < e) (hn : 2 ≤ n) (ε : ℝ) (hε : 0 < ε) :
    ∃ jc : ℕ, ∀ j1 j2 : ℕ, 1 ≤ j1 → jc ≤ j1 → j1 < j2 → ∃ η : ℝ, 0 < η ∧ ∃ F : List ((ℝ × ℕ) × (ℝ × ℕ)),
    (∀ p ∈ F, -(1 / 4) < p.1.1 ∧ -(1 / 4) < p.2.1) ∧
    ∀ {Ω : Type u} [MeasurableSpace Ω] {μ : Measure Ω} {N : ℕ} {x : Ω → List (Fin R → ℝ)} {A : ℕ → ℝ} {c : ℝ}, 0 < c →
      2 ^ (j2 + 1) * (wt.dec_hi.length + 1) ≤ N →
      GaussianArray μ N x (fun n m => A n + A m - c * G ((n : ℤ) - m)) → ∀ (weighted : Bool) {w : Ω → WT R} {W : (Fin R → ℝ) → Ω → WT 1},
      (∀ ω, waveletAnalysis (asFloats (x ω)) .inf wt j1 (some (j2 : ℝ)) 0 1 weighted = .ok (w ω)) →
      (∀ γ ω, waveletAnalysis (asFloats (mixture γ (x ω))) .inf wt j1 (some (j2 : ℝ)) 0 1 weighted = .ok (W γ ω)) → ∀ ω : Ω,
      (∃ d, mfAnalysisFull (asFloats (mixture α (x ω))) j1 (some j2) 1 0 weighted wt .inf (some (.ndarray q1)) n = .ok d ∧
        MonofractalNear d.dwt q1 n h ε 0) →
      (∃ d, mfAnalysisFull (asFloats (mixture β (x ω))) j1 (some j2) 1 0 weighted wt .inf (some (.ndarray q2)) n = .ok d ∧
        MonofractalNear d.dwt q2 n h ε 0) →
      (∀ j : ℕ, 1 ≤ j → j ≤ j2 → ∀ p ∈ F, |(∑ k ∈ interior N wt.dec_hi.length j,
        pairTest (fun r => α r / √(∑ r, α r ^ 2)) (fun r => β r / √(∑ r, β r ^ 2)) p fun r => (w ω).wt_coefs.number j k r / √(c * τ j)) /
        (interior N wt.dec_hi.length j).card - pairMoment (fun r => α r / √(∑ r, α r ^ 2)) (fun r => β r / √(∑ r, β r ^ 2)) p| < η) →
      (∀ j : ℕ, 1 ≤ j → j ≤ j2 → ∀ k ∈ interior N wt.dec_hi.length j, (W α ω).wt_coefs.number j k 0 ≠ 0) →
      (∀ j : ℕ, 1 ≤ j → j ≤ j2 → ∀ k ∈ interior N wt.dec_hi.length j, (W β ω).wt_coefs.number j k 0 ≠ 0) →
      ∃ d l, bivariateAnalysisFull (asFloats (mixture α (x ω))) (asFloats (mixture β (x ω))) j1 (some (j2 : ℝ)) 1 0 weighted wt
          .inf (some (.ndarray q1)) (some (.ndarray q2)) n = .ok (d, l) ∧ BiMonofractalNear d q1 q2 n h ε := by
  have hR : R ≠ 0 := by rintro rfl; exact hα (Subsingleton.elim _ _)
  have ha := sum_sq_pos hα
  have hb := sum_sq_pos hβ
  have h0 := hK.pos
  have hexp : coefExponent h 0 1 / 2 = h := by rw [coefExponent_default]; ring
  -- the exponents are bounded
  have hbd : ∀ q : List ℝ, ∃ Q : ℝ, 0 ≤ Q ∧ ∀ e ∈ q, |e| ≤ Q := by
    intro q
    induction q with
    | nil => exact ⟨0, le_rfl, by simp⟩
    | cons a q ih =>
      obtain ⟨Q, h1, h2⟩ := ih
      refine ⟨max Q |a|, le_max_of_le_left h1, ?_⟩
      intro e he
      rcases List.mem_cons.1 he with rfl | he
      · exact le_max_right _ _
      · exact (h2 e he).trans (le_max_left _ _)
  obtain ⟨Q1, hQ1, hQ1'⟩ := hbd q1
  obtain ⟨Q2, hQ2, hQ2'⟩ := hbd q2
  have hρ1 : (2:ℝ) ^ (-(2 * b)) < 1 := Real.rpow_lt_one_of_one_lt_of_neg (by norm_num) (by linarith)
  have hρ : 0 < 1 - (2:ℝ) ^ (-(2 * b)) := by linarith
  obtain ⟨jc, hjc⟩ : ∃ j₀ : ℕ, ∀ j1 : ℕ, j₀ ≤ j1 → (Q1 + Q2) * (B / 2) / (1 - (2:ℝ) ^ (-(2 * b))) * (2:ℝ) ^ (-(2 * b * j1)) ≤ ε / 2 := by
    have ht : Filter.Tendsto (fun j : ℕ => (Q1 + Q2) * (B / 2) / (1 - (2:ℝ) ^ (-(2 * b))) * ((2:ℝ) ^ (-(2 * b))) ^ j) Filter.atTop
        (nhds ((Q1 + Q2) * (B / 2) / (1 - (2:ℝ) ^ (-(2 * b))) * 0)) :=
      (tendsto_pow_atTop_nhds_zero_of_lt_one (by positivity) hρ1).const_mul _
    rw [mul_zero] at ht
    obtain ⟨j₀, hj₀⟩ := Filter.eventually_atTop.1 (ht.eventually_le_const (by positivity : (0:ℝ) < ε / 2))
    refine ⟨j₀, fun j1 hj1 => ?_⟩
    have := hj₀ j1 hj1
    rwa [← Real.rpow_natCast, ← Real.rpow_mul (by norm_num), show -(2 * b) * (j1 : ℝ) = -(2 * b * j1) by ring] at this
  refine ⟨jc, ?_⟩
  intro j1 j2 hj1 hj1c hj12
  obtain ⟨L, hL⟩ : ∃ L : ℝ, L = (j2 : ℝ) - j1 + 1 := ⟨_, rfl⟩
  have hL0 : 0 < L := by
    have : (j1 : ℝ) < j2 := by exact_mod_cast hj12
    rw [hL]; linarith
  have hle : 0 < log2e := by
    unfold log2e; exact Real.logb_pos (by norm_num) (by have := Real.add_one_lt_exp (x := 1) one_ne_zero; linarith)
  obtain ⟨u, hu⟩ : ∃ u : Fin R → ℝ, u = fun r => α r / √(∑ r, α r ^ 2) := ⟨_, rfl⟩
  obtain ⟨v, hv⟩ : ∃ v : Fin R → ℝ, v = fun r => β r / √(∑ r, β r ^ 2) := ⟨_, rfl⟩
  have hu1 : ∑ r, u r ^ 2 = 1 := by rw [hu]; exact unit_vector hα
  have hv1 : ∑ r, v r ^ 2 = 1 := by rw [hv]; exact unit_vector hβ
  have hmp : ∀ e1 ∈ q1, ∀ e2 ∈ q2, 0 < pairMoment u v ((e1, 0), (e2, 0)) := fun e1 h1 e2 h2 =>
    pairMoment_pos hu1 hv1 (hl1 e1 h1) (hl2 e2 h2)
  -- the precision needed for the moments
  obtain ⟨η, hη, hη1, hη2⟩ : ∃ η : ℝ, 0 < η ∧ (∀ e1 ∈ q1.toFinset, ∀ e2 ∈ q2.toFinset, ∀ t, |t - pairMoment u v ((e1, 0), (e2, 0))| < η →
      |Real.logb 2 t - Real.logb 2 (pairMoment u v ((e1, 0), (e2, 0)))| < ε / 2 / L) ∧
      ∀ x y z : ℝ, |x - pairMoment u v ((0, 1), (0, 1))| < η → |y - pairMoment u v ((0, 1), (0, 0))| < η → |z - pairMoment u v ((0, 0), (0, 1))| < η →
        |x - y * z - (pairMoment u v ((0, 1), (0, 1)) - pairMoment u v ((0, 1), (0, 0)) * pairMoment u v ((0, 0), (0, 1)))| < ε / log2e / L := by
    have E1 : ∀ᶠ η in 𝓝[>] (0:ℝ), ∀ e1 ∈ q1.toFinset, ∀ e2 ∈ q2.toFinset, ∀ t, |t - pairMoment u v ((e1, 0), (e2, 0))| < η →
        |Real.logb 2 t - Real.logb 2 (pairMoment u v ((e1, 0), (e2, 0)))| < ε / 2 / L := by
      rw [Finset.eventually_all]
      intro e1 h1
      rw [Finset.eventually_all]
      intro e2 h2
      have hm := hmp e1 (List.mem_toFinset.1 h1) e2 (List.mem_toFinset.1 h2)
      refine eventually_near (f := fun t => Real.logb 2 t) ?_ (by positivity)
      exact (Real.continuousAt_log hm.ne').div_const _
    have E2 := eventually_cov (a := pairMoment u v ((0, 1), (0, 1))) (b := pairMoment u v ((0, 1), (0, 0))) (c := pairMoment u v ((0, 0), (0, 1)))
      (ε := ε / log2e / L) (by positivity)
    obtain ⟨η, a1, a2, a3⟩ := (E1.and (E2.and self_mem_nhdsWithin)).exists
    exact ⟨η, a3, a1, a2⟩
  obtain ⟨F, hFd⟩ : ∃ F : List ((ℝ × ℕ) × (ℝ × ℕ)), F = ((0, 1), (0, 1)) :: ((0, 1), (0, 0)) :: ((0, 0), (0, 1)) ::
    (q1.flatMap fun e1 => q2.map fun e2 => ((e1, 0), (e2, 0))) := ⟨_, rfl⟩
  have hFe : ∀ p ∈ F, -(1 / 4) < p.1.1 ∧ -(1 / 4) < p.2.1 := by
    intro p hp
    rw [hFd] at hp
    simp only [List.mem_cons, List.mem_flatMap, List.mem_map] at hp
    rcases hp with rfl | rfl | rfl | ⟨e1, h1, e2, h2, rfl⟩
    · norm_num
    · norm_num
    · norm_num
    · exact ⟨hl1 e1 h1, hl2 e2 h2⟩
  refine ⟨η, hη, F, hFe, ?_⟩
  intro Ω _ μ N x A c hc hN4 hG weighted w W hw hW ω hda' hdb' g3 hnzα hnzβ
  obtain ⟨da, hda, hma⟩ := hda'
  obtain ⟨db, hdb, hmb⟩ := hdb'
  rw [← hu, ← hv] at g3
  have hN0 : N ≠ 0 := by
    have : 0 < 2 ^ (j2 + 1) * (wt.dec_hi.length + 1) := by positivity
    omega
  have hx := hG.length
  have hWs : ∀ γ ω, waveletAnalysis (sampled N fun r s => ((mixture γ (x ω)).getD s.toNat fun _ => 0) r) .inf wt j1 (some (j2 : ℝ)) 0 1 weighted = .ok (W γ ω) := by
    intro γ ω
    rw [← asFloats_sampled (by rw [mixture_length, hx])]; exact hW γ ω
  have hws : ∀ ω, waveletAnalysis (sampled N fun r s => ((x ω).getD s.toNat fun _ => 0) r) .inf wt j1 (some (j2 : ℝ)) 0 1 weighted = .ok (w ω) := by
    intro ω
    rw [← asFloats_sampled (hx ω)]; exact hw ω
  have hGm : ∀ γ, GaussianArray μ N (fun ω => mixture γ (x ω)) (fun n m => (∑ r, γ r ^ 2) * A n + (∑ r, γ r ^ 2) * A m - (∑ r, γ r ^ 2) * c * G ((n : ℤ) - m)) := by
    intro γ
    have := mixture_gaussian hG γ
    have e : (fun n m : ℕ => (∑ r, γ r ^ 2) * (A n + A m - c * G ((n : ℤ) - m))) =
        fun n m : ℕ => (∑ r, γ r ^ 2) * A n + (∑ r, γ r ^ 2) * A m - (∑ r, γ r ^ 2) * c * G ((n : ℤ) - m) := by
      funext n m; ring
    rwa [e] at this
  have hP : ∀ γ, IncrementAnalysis μ wt G ((∑ r, γ r ^ 2) * c) 0 1 N (fun ω => mixture γ (x ω)) (W γ) := fun γ =>
    ⟨⟨fun n => (∑ r, γ r ^ 2) * A n, hGm γ⟩, _, _, _, _, hW γ⟩
  have hPx : IncrementAnalysis μ wt G c 0 1 N x w := ⟨⟨A, hG⟩, _, _, _, _, hw⟩
  have hlong : ∀ γ ω, (W γ ω).j2_eff = j2 ∧ j2 ≤ (W γ ω).wt_coefs.values.length :=
    fun γ ω => long_enough one_ne_zero hwt (Or.inr hF) (by omega) hN4 (hWs γ ω)
  have hlongx : ∀ ω, (w ω).j2_eff = j2 ∧ j2 ≤ (w ω).wt_coefs.values.length :=
    fun ω => long_enough hR hwt (Or.inr hF) (by omega) hN4 (hws ω)
  -- the call returns
  obtain ⟨Lv, hLv⟩ : ∃ L, decompositionLevel N wt = .ok L := by
    rw [decompositionLevel, maxLevel, if_neg hN0]; exact ⟨_, rfl⟩
  have hjL : (j2 : ℤ) < Lv := by
    have h := ((maxLevel_iff hN0 Lv).1 hLv).2
    have h2 : ((2:ℝ) ^ ((j2 : ℤ) + 1)) * ((wt.dec_hi.length : ℝ) + 1) ≤ N := by
      rw [show ((j2 : ℤ) + 1) = ((j2 + 1 : ℕ) : ℤ) by push_cast; ring, zpow_natCast]
      exact_mod_cast hN4
    have h3 : (2:ℝ) ^ ((j2 : ℤ) + 1) < (2:ℝ) ^ (Lv + 1) :=
      lt_of_mul_lt_mul_right (h2.trans_lt h) (by positivity)
    have := (zpow_lt_zpow_iff_right₀ (by norm_num : (1:ℝ) < 2)).1 h3
    omega
  obtain ⟨d, l, d1, l1, d2, l2, hd, hd1, hd2, hmarg, -⟩ := C67_full_marginals (fun r s => ((mixture α (x ω)).getD s.toNat fun _ => 0) r)
    (fun r s => ((mixture β (x ω)).getD s.toNat fun _ => 0) r) wt hwt hF j1 (some (j2 : ℝ)) 0 1 one_ne_zero weighted q1 q2 hn1 hn2 hq1 hq2 n hn hLv
    (by exact_mod_cast hj1) (by omega) (by rintro b hb; cases hb; exact_mod_cast hj12.le)
  rw [← asFloats_sampled (N := N) (by rw [mixture_length, hx])] at hd1 hd2
  have ea : da.dwt = d1 := by rw [hda] at hd1; cases hd1; rfl
  have eb : db.dwt = d2 := by rw [hdb] at hd2; cases hd2; rfl
  rw [ea] at hma
  rw [eb] at hmb
  refine ⟨d, l, ?_, ?_⟩
  · rw [asFloats_sampled (N := N) (by rw [mixture_length, hx]), asFloats_sampled (N := N) (by rw [mixture_length, hx])]; exact hd
  -- the two constructors
  have hmake : BiCumulants.make false (W α ω).wt_coefs (W β ω).wt_coefs n j1 j2 weighted = .ok d.cumulants ∧
      BiStructFn.make false (W α ω).wt_coefs (W β ω).wt_coefs j1 j2 (.ndarray q1) (.ndarray q2) weighted = .ok d.structure_ := by
    unfold bivariateAnalysisFull at hd
    rw [hWs α ω] at hd
    simp only at hd
    rw [hWs β ω] at hd
    simp only at hd
    unfold bivariateAnalysis at hd
    simp only [(hlong α ω).1, (hlong β ω).1, min_self] at hd
    split at hd
    · cases hd
    · rename_i dd hdd
      have : dd = d := by
        split at hd
        · split at hd
          · cases hd
          · cases hd; rfl
        · cases hd
      subst this
      unfold biVar at hdd
      split at hdd
      · cases hdd
      · rename_i cc hcc
        simp only at hdd
        split at hdd
        · cases hdd
        · rename_i s hs
          cases hdd; exact ⟨hcc, hs⟩
  obtain ⟨hmc, hms⟩ := hmake
  obtain ⟨J, Jc, -, -, -, -, -, -, -, -, -, hp, -⟩ := wa_paired hwt (hWs α ω) (hWs β ω)
  have hJc : j2 ≤ Jc := by
    have h2 := congrArg List.length hp.reg1.1
    simp only [List.length_map, List.length_range] at h2
    have := (hlong α ω).2
    omega
  have ha1 : (1:ℤ) ≤ (j1 : ℤ) := by exact_mod_cast hj1
  have ha2 : (j1 : ℤ) ≤ (j2 : ℤ) := by exact_mod_cast hj12.le
  have ha3 : (j2 : ℤ) ≤ (Jc : ℤ) := by exact_mod_cast hJc
  -- each scale
  have hscale : ∀ q ∈ biList (W α ω).wt_coefs (W β ω).wt_coefs, 0 < wtOf weighted q.1 0 ∧ ∀ j : ℕ, q.1.1 = j → j1 ≤ j → j ≤ j2 →
      ∃ zs, JointIs (biPairs q) zs ∧ zs ≠ [] ∧ (∀ z ∈ zs, z.1 ≠ 0 ∧ z.2 ≠ 0) ∧
        ∀ p ∈ F, |pmean p √((∑ r, α r ^ 2) * c * τ j) √((∑ r, β r ^ 2) * c * τ j) zs - pairMoment u v p| < η := by
    intro q hq
    obtain ⟨j, e1, hjj, hjl, zs, e2, e3, e4, e5⟩ := pair_entries hwt (hWs α ω) (hWs β ω) hq
    have hcard := (hP α).card hwt one_ne_zero hjj hjl
    refine ⟨?_, ?_⟩
    · obtain ⟨-, -, he⟩ := (hP α).entries hwt ω
      obtain ⟨j', hj', hj1', hj2', hr⟩ := he q.1 (hp.mem1 hq)
      obtain ⟨xs, f1, f2, f3, f4⟩ := hr 0
      have hjj' : j' = j := by rw [e1] at hj'; exact_mod_cast hj'.symm
      subst hjj'
      unfold wtOf
      split
      · rw [f1.count, f3]
        exact_mod_cast (by omega : 0 < (interior N wt.dec_hi.length j').card)
      · exact one_pos
    · intro j' hj' h1' h2'
      have hjj' : j' = j := by rw [e1] at hj'; exact_mod_cast hj'.symm
      subst hjj'
      refine ⟨zs, e2, ?_, ?_, ?_⟩
      · rintro rfl; simp at e4; omega
      · intro z hz
        obtain ⟨k, hk, rfl⟩ := e5 z hz
        exact ⟨hnzα j' hjj h2' k hk, hnzβ j' hjj h2' k hk⟩
      · intro p hpF
        have := g3 j' hjj h2' p hpF
        refine lt_of_le_of_lt (le_of_eq ?_) this
        congr 2
        unfold pmean mean
        rw [List.length_map, e4, e3 (fun z => testF p.1.1 p.1.2 (z.1 / √((∑ r, α r ^ 2) * c * τ j')) * testF p.2.1 p.2.2 (z.2 / √((∑ r, β r ^ 2) * c * τ j')))]
        congr 1
        refine sum_congr rfl fun k hk => ?_
        have hrep : ∀ r, (w ω).wt_coefs.Reported j' k r := fun r => hPx.reported hwt hjj (h2'.trans (hlongx ω).2) hk r
        have m1 := mixture_number hwt hx α hw (hW α) hrep ((hP α).reported hwt hjj hjl hk 0) hR ω
        have m2 := mixture_number hwt hx β hw (hW β) hrep ((hP β).reported hwt hjj (h2'.trans (hlong β ω).2) hk 0) hR ω
        have key : ∀ γ : Fin R → ℝ, 0 ≤ ∑ r, γ r ^ 2 → (∑ r, γ r * (w ω).wt_coefs.number j' k r) / √((∑ r, γ r ^ 2) * c * τ j') =
            ∑ r, γ r / √(∑ r, γ r ^ 2) * ((w ω).wt_coefs.number j' k r / √(c * τ j')) := by
          intro γ hγ
          rw [mul_assoc, Real.sqrt_mul hγ, sum_div]
          exact sum_congr rfl fun r _ => by rw [div_mul_div_comm]
        simp only [pairTest, hu, hv]
        rw [m1, m2, key α ha.le, key β hb.le]
  have hwpos : ∀ q ∈ biList (W α ω).wt_coefs (W β ω).wt_coefs, 0 < wtOf weighted q.1 0 := fun q hq => (hscale q hq).1
  have hσ : ∀ {a : ℝ}, 0 < a → ∀ j : ℕ, 1 ≤ j → 0 < √(a * c * τ j) ∧ Real.logb 2 √(a * c * τ j) = (Real.logb 2 (a * c) + Real.logb 2 (τ j)) / 2 := by
    intro a ha j hj
    have t1 := (hτ j hj).1
    have hac := mul_pos ha hc
    refine ⟨Real.sqrt_pos.2 (mul_pos hac t1), ?_⟩
    rw [Real.sqrt_eq_rpow, Real.logb_rpow_eq_mul_logb_of_pos (mul_pos hac t1), Real.logb_mul hac.ne' t1.ne']
    ring
  refine ⟨?_, ?_⟩
  · -- the exponents
    intro i k e1 e2 hi hk
    have m1 := List.mem_of_getElem? hi
    have m2 := List.mem_of_getElem? hk
    obtain ⟨z, hz, hzb⟩ := biSlope_near hp hj1 hj12 hJc weighted (bsLog e1 e2) (β := b) (ε' := ε / 2 / L) (K := |e1 + e2| * (B / 2))
      (c := (e1 * Real.logb 2 ((∑ r, α r ^ 2) * c) + e2 * Real.logb 2 ((∑ r, β r ^ 2) * c) + (e1 + e2) * Real.logb 2 V) / 2 +
        Real.logb 2 (pairMoment u v ((e1, 0), (e2, 0)))) (d := (e1 + e2) * h) h0 (by positivity) hwpos (by
        intro q hq j hj h1' h2'
        obtain ⟨zs, a1, a2, a3, a4⟩ := (hscale q hq).2 j hj h1' h2'
        have hjj : 1 ≤ j := hj1.trans h1'
        obtain ⟨s1, s1'⟩ := hσ ha j hjj
        obtain ⟨s2, s2'⟩ := hσ hb j hjj
        obtain ⟨-, b2⟩ := bsLog_value a1 a2 a3 s1 s2 e1 e2
        refine ⟨_, b2, ?_⟩
        have c1 := hη1 e1 (List.mem_toFinset.2 m1) e2 (List.mem_toFinset.2 m2) _ (a4 ((e1, 0), (e2, 0)) (by
          rw [hFd]; simp only [List.mem_cons, List.mem_flatMap, List.mem_map]; exact Or.inr (Or.inr (Or.inr ⟨e1, m1, e2, m2, rfl⟩))))
        have c2 := (hτ j hjj).2
        rw [s1', s2']
        have e : e1 * ((Real.logb 2 ((∑ r, α r ^ 2) * c) + Real.logb 2 (τ j)) / 2) + e2 * ((Real.logb 2 ((∑ r, β r ^ 2) * c) + Real.logb 2 (τ j)) / 2) +
            Real.logb 2 (pmean ((e1, 0), (e2, 0)) √((∑ r, α r ^ 2) * c * τ j) √((∑ r, β r ^ 2) * c * τ j) zs) -
            ((e1 * Real.logb 2 ((∑ r, α r ^ 2) * c) + e2 * Real.logb 2 ((∑ r, β r ^ 2) * c) + (e1 + e2) * Real.logb 2 V) / 2 +
              Real.logb 2 (pairMoment u v ((e1, 0), (e2, 0))) + (e1 + e2) * h * j) =
            (Real.logb 2 (pmean ((e1, 0), (e2, 0)) √((∑ r, α r ^ 2) * c * τ j) √((∑ r, β r ^ 2) * c * τ j) zs) -
              Real.logb 2 (pairMoment u v ((e1, 0), (e2, 0)))) +
            (e1 + e2) / 2 * (Real.logb 2 (τ j) - (Real.logb 2 V + j * coefExponent h 0 1)) := by
          have : coefExponent h 0 1 = 2 * h := by linarith
          rw [this]; ring
        rw [e]
        refine (abs_add_le _ _).trans (add_le_add c1.le ?_)
        rw [abs_mul, abs_div, abs_of_pos (by norm_num : (0:ℝ) < 2)]
        refine (mul_le_mul_of_nonneg_left c2 (by positivity)).trans (le_of_eq (by ring)))
    have hzeta : (d.structure_.zeta[i]?.bind fun l => l[k]?) = some (biSlope (W α ω).wt_coefs (W β ω).wt_coefs j1 j2 weighted (bsLog e1 e2)) := by
      have hcoh := bsCoherence_ok (scales := (biList (W α ω).wt_coefs (W β ω).wt_coefs).map biPairs) hn1 hn2 hq1.1 hq1.2.1 hq1.2.2 hq2.1 hq2.2.1 hq2.2.2
      have hfn := hp.biStructFn ha1 ha2 ha3 weighted false hcoh (by rintro rfl; cases m1) (by rintro rfl; cases m2)
      rw [hms] at hfn
      rw [Except.ok.inj hfn]
      simp only [List.getElem?_map, hi, Option.map_some, Option.bind_some, hk]
    refine ⟨_, hzeta, z, hz, hzb.trans ?_⟩
    rw [← hL]
    have e3 : L * (ε / 2 / L) = ε / 2 := by field_simp
    have e4 := hjc j1 hj1c
    have e5 : |e1 + e2| * (B / 2) / (1 - (2:ℝ) ^ (-(2 * b))) * (2:ℝ) ^ (-(2 * b * j1)) ≤
        (Q1 + Q2) * (B / 2) / (1 - (2:ℝ) ^ (-(2 * b))) * (2:ℝ) ^ (-(2 * b * j1)) := by
      refine mul_le_mul_of_nonneg_right (div_le_div_of_nonneg_right (mul_le_mul_of_nonneg_right ?_ (by positivity)) hρ.le) (by positivity)
      exact (abs_add_le _ _).trans (add_le_add (hQ1' e1 m1) (hQ2' e2 m2))
    linarith
  · -- the log-cumulants
    intro a b' han hbn
    obtain ⟨cc, hcc, -, -, -, -, -, -, hlc, -⟩ := hp.biCumulants ha1 ha2 ha3 weighted false (n := n) (Or.inr hn)
    rw [hmc] at hcc
    obtain rfl := Except.ok.inj hcc
    by_cases hab : (a = 0 ∧ b' = 0) ∨ (1 ≤ a ∧ 1 ≤ b' ∧ ¬ (a = 1 ∧ b' = 1))
    · obtain ⟨z, hz, hzb⟩ := biSlope_near hp hj1 hj12 hJc weighted (bcAt n a b') (β := b) (ε' := 0) (K := 0) (c := 0) (d := 0) h0 le_rfl hwpos (by
        intro q hq j hj h1' h2'
        refine ⟨0, bcTable_zero _ _ a b' (by omega), ?_⟩
        simp)
      have : z = 0 := by simpa using hzb
      rw [hlc, hz, this, Fl.fin_mul, zero_mul, if_neg (by omega)]
      exact ⟨0, rfl, by simpa using hε.le⟩
    · by_cases h11 : a = 1 ∧ b' = 1
      · obtain ⟨rfl, rfl⟩ := h11
        obtain ⟨z, hz, hzb⟩ := biSlope_near hp hj1 hj12 hJc weighted (bcAt n 1 1) (β := b) (ε' := ε / log2e / L) (K := 0)
          (c := pairMoment u v ((0, 1), (0, 1)) - pairMoment u v ((0, 1), (0, 0)) * pairMoment u v ((0, 0), (0, 1))) (d := 0) h0 le_rfl hwpos (by
          intro q hq j hj h1' h2'
          obtain ⟨zs, a1, a2, a3, a4⟩ := (hscale q hq).2 j hj h1' h2'
          have hjj : 1 ≤ j := hj1.trans h1'
          refine ⟨_, bc11_value a1 a2 a3 (hσ ha j hjj).1 (hσ hb j hjj).1 (by omega), ?_⟩
          rw [zero_mul, add_zero, zero_mul, add_zero]
          exact (hη2 _ _ _ (a4 _ (by rw [hFd]; simp)) (a4 _ (by rw [hFd]; simp)) (a4 _ (by rw [hFd]; simp))).le)
        rw [hlc, hz, Fl.fin_mul, if_neg (by omega)]
        refine ⟨_, rfl, ?_⟩
        rw [sub_zero, abs_mul, abs_of_pos hle]
        rw [sub_zero, ← hL, zero_div, zero_mul, add_zero] at hzb
        have e3 : L * (ε / log2e / L) * log2e = ε := by field_simp
        have := mul_le_mul_of_nonneg_right hzb hle.le
        linarith
      · rcases Nat.eq_zero_or_pos b' with rfl | hb'
        · obtain ⟨i, rfl⟩ : ∃ i, a = i + 1 := ⟨a - 1, by omega⟩
          have m := (hmarg.1 i (by omega)).1
          obtain ⟨row, hrow, hnear⟩ := hma.2.2.1 i (by omega)
          rw [hrow, Option.map_some] at m
          rw [← Option.some.inj m]
          have : (i + 1 + 0 = 1) = (i = 0) := propext (by omega)
          simp only [this]
          exact hnear
        · obtain ⟨i, rfl⟩ : ∃ i, b' = i + 1 := ⟨b' - 1, by omega⟩
          have ha0 : a = 0 := by omega
          subst ha0
          have m := (hmarg.1 i (by omega)).2
          obtain ⟨row, hrow, hnear⟩ := hmb.2.2.1 i (by omega)
          rw [hrow, Option.map_some] at m
          rw [← Option.some.inj m]
          have : (0 + (i + 1) = 1) = (i = 0) := propext (by omega)
          simp only [this]
          exact hnear

/-- The rate of C137: except with probability at most `C / N` the call returns and all the estimates are within `ε` of the truth. -/
theorem bi_estimates_rate {M : ℕ} (hM : VanishingMoments wt.dec_hi M) (hM1 : 1 ≤ M) (hwt : wt.Valid) (hF : 4 ≤ wt.dec_hi.length) {G : ℤ → ℝ}
    {h b : ℝ} (hK : ScalingKernel wt G h b) {R : ℕ} {α β : Fin R → ℝ} (hα : α ≠ 0) (hβ : β ≠ 0) (q1 q2 : List ℝ) (n : ℕ)
    (hn1 : q1.Nodup) (hn2 : q2.Nodup) (hq1 : (0:ℝ) ∈ q1 ∧ (1:ℝ) ∈ q1 ∧ (2:ℝ) ∈ q1) (hq2 : (0:ℝ) ∈ q2 ∧ (1:ℝ) ∈ q2 ∧ (2:ℝ) ∈ q2)
    (hl1 : ∀ e ∈ q1, -(1 / 4) < e) (hl2 : ∀ e ∈ q2, -(1 / 4) < e) (hn : 2 ≤ n) (ε : ℝ) (hε : 0 < ε) :
    ∃ j₀ : ℕ, 1 ≤ j₀ ∧ ∀ j1 j2 : ℕ, j₀ ≤ j1 → j1 < j2 → ∃ C : ℝ,
    ∀ {Ω : Type u} [MeasurableSpace Ω] {μ : Measure Ω} {N : ℕ} {x : Ω → List (Fin R → ℝ)} {A : ℕ → ℝ} {c : ℝ}, 0 < c → 1 ≤ N →
      GaussianArray μ N x (fun n m => A n + A m - c * G ((n : ℤ) - m)) → ∀ weighted : Bool,
      μ {ω | ¬ ∃ d l, bivariateAnalysisFull (asFloats (mixture α (x ω))) (asFloats (mixture β (x ω))) j1 (some (j2 : ℝ)) 1 0 weighted wt
          .inf (some (.ndarray q1)) (some (.ndarray q2)) n = .ok (d, l) ∧ BiMonofractalNear d q1 q2 n h ε} ≤ ENNReal.ofReal (C / N) := by
  have hR : R ≠ 0 := by rintro rfl; exact hα (Subsingleton.elim _ _)
  have ha := sum_sq_pos hα
  have hb := sum_sq_pos hβ
  obtain ⟨τ, V, B, hV, hB, hτ, hpl⟩ := pair_rate.{u} hM hM1 hwt hK 0 1 (unit_vector hα) (unit_vector hβ)
  obtain ⟨τ', V', B', -, -, hnz, -⟩ := coefs_llnG.{u} hM hM1 hwt hK 0 1
  obtain ⟨ja, ja1, hja⟩ := estimates_rate.{u} hM hM1 hwt hK q1 n hq1.2.2 (fun e he => by linarith [hl1 e he]) ε hε
  obtain ⟨jb, jb1, hjb⟩ := estimates_rate.{u} hM hM1 hwt hK q2 n hq2.2.2 (fun e he => by linarith [hl2 e he]) ε hε
  obtain ⟨jc, hcore⟩ := bi_recovered_at.{u} hwt hF hK hB hτ hα hβ q1 q2 n hn1 hn2 hq1 hq2 hl1 hl2 hn ε hε
  refine ⟨max ja (max jb jc), ja1.trans (le_max_left _ _), ?_⟩
  intro j1 j2 hj01 hj12
  have hj1a : ja ≤ j1 := (le_max_left _ _).trans hj01
  have hj1b : jb ≤ j1 := ((le_max_left _ _).trans (le_max_right _ _)).trans hj01
  have hj1c : jc ≤ j1 := ((le_max_right _ _).trans (le_max_right _ _)).trans hj01
  have hj1 : 1 ≤ j1 := ja1.trans hj1a
  obtain ⟨Ca, hNa⟩ := hja j1 j2 hj1a hj12
  obtain ⟨Cb, hNb⟩ := hjb j1 j2 hj1b hj12
  obtain ⟨η, hη, F, hFe, hcore⟩ := hcore j1 j2 hj1 hj1c hj12
  obtain ⟨Cc, hCc, hNc⟩ := hpl F hFe j2 η hη
  obtain ⟨N₀, hN₀⟩ : ∃ N₀, N₀ = 2 ^ (j2 + 1) * (2 * wt.dec_hi.length + 1) := ⟨_, rfl⟩
  refine ⟨|Ca| + |Cb| + Cc + N₀, ?_⟩
  intro Ω _ μ N x A c hc hN1 hG weighted
  have hμ : IsProbabilityMeasure μ := hG.gaussian.isProbabilityMeasure
  have hNr : (0:ℝ) < N := by exact_mod_cast hN1
  by_cases hN : N₀ ≤ N
  swap
  · refine prob_le_one.trans ?_
    rw [← ENNReal.ofReal_one]
    refine ENNReal.ofReal_le_ofReal ?_
    rw [le_div_iff₀ hNr, one_mul]
    have : (N : ℝ) ≤ N₀ := by exact_mod_cast (not_le.1 hN).le
    have := abs_nonneg Ca
    have := abs_nonneg Cb
    linarith
  have hN3 : 2 ^ j2 * (4 * wt.dec_hi.length + 2) ≤ N := by
    refine le_trans (le_of_eq ?_) (hN₀ ▸ hN)
    rw [pow_succ]; ring
  have hN4 : 2 ^ (j2 + 1) * (wt.dec_hi.length + 1) ≤ N := by
    refine le_trans (Nat.mul_le_mul_left _ ?_) (hN₀ ▸ hN)
    omega
  have hN0 : N ≠ 0 := by
    have : 0 < 2 ^ (j2 + 1) * (wt.dec_hi.length + 1) := by positivity
    omega
  have hx := hG.length
  -- the transforms
  have htot : ∀ (γ : Fin R → ℝ) (ω : Ω), ∃ w, waveletAnalysis (asFloats (mixture γ (x ω))) .inf wt j1 (some (j2 : ℝ)) 0 1 weighted = .ok w := by
    intro γ ω
    refine C05_total _ .inf (Or.inr rfl) wt _ _ 0 1 weighted one_ne_zero ?_ one_ne_zero
    intro h0; have := congrArg List.length h0; simp [asFloats, mixture_length, hx ω] at this; exact hN0 this
  have htot' : ∀ (ω : Ω), ∃ w, waveletAnalysis (asFloats (x ω)) .inf wt j1 (some (j2 : ℝ)) 0 1 weighted = .ok w := by
    intro ω
    refine C05_total _ .inf (Or.inr rfl) wt _ _ 0 1 weighted hR ?_ one_ne_zero
    intro h0; have := congrArg List.length h0; simp [asFloats, hx ω] at this; exact hN0 this
  choose W hW using htot
  choose w hw using htot'
  have hWs : ∀ γ ω, waveletAnalysis (sampled N fun r s => ((mixture γ (x ω)).getD s.toNat fun _ => 0) r) .inf wt j1 (some (j2 : ℝ)) 0 1 weighted = .ok (W γ ω) := by
    intro γ ω
    rw [← asFloats_sampled (by rw [mixture_length, hx])]; exact hW γ ω
  have hws : ∀ ω, waveletAnalysis (sampled N fun r s => ((x ω).getD s.toNat fun _ => 0) r) .inf wt j1 (some (j2 : ℝ)) 0 1 weighted = .ok (w ω) := by
    intro ω
    rw [← asFloats_sampled (hx ω)]; exact hw ω
  have hGm : ∀ γ, GaussianArray μ N (fun ω => mixture γ (x ω)) (fun n m => (∑ r, γ r ^ 2) * A n + (∑ r, γ r ^ 2) * A m - (∑ r, γ r ^ 2) * c * G ((n : ℤ) - m)) := by
    intro γ
    have := mixture_gaussian hG γ
    have e : (fun n m : ℕ => (∑ r, γ r ^ 2) * (A n + A m - c * G ((n : ℤ) - m))) =
        fun n m : ℕ => (∑ r, γ r ^ 2) * A n + (∑ r, γ r ^ 2) * A m - (∑ r, γ r ^ 2) * c * G ((n : ℤ) - m) := by
      funext n m; ring
    rwa [e] at this
  have hP : ∀ γ, IncrementAnalysis μ wt G ((∑ r, γ r ^ 2) * c) 0 1 N (fun ω => mixture γ (x ω)) (W γ) := fun γ =>
    ⟨⟨fun n => (∑ r, γ r ^ 2) * A n, hGm γ⟩, _, _, _, _, hW γ⟩
  have hPx : IncrementAnalysis μ wt G c 0 1 N x w := ⟨⟨A, hG⟩, _, _, _, _, hw⟩
  have hlong : ∀ γ ω, (W γ ω).j2_eff = j2 ∧ j2 ≤ (W γ ω).wt_coefs.values.length :=
    fun γ ω => long_enough one_ne_zero hwt (Or.inr hF) (by omega) hN4 (hWs γ ω)
  have hlongx : ∀ ω, (w ω).j2_eff = j2 ∧ j2 ≤ (w ω).wt_coefs.values.length :=
    fun ω => long_enough hR hwt (Or.inr hF) (by omega) hN4 (hws ω)
  have hprob := hPx.prob
  obtain ⟨ω₀⟩ : Nonempty Ω := nonempty_of_isProbabilityMeasure μ
  -- the exceptional sets
  let badA : Set Ω := {ω | ¬ ∃ d, mfAnalysisFull (asFloats (mixture α (x ω))) j1 (some j2) 1 0 weighted wt .inf (some (.ndarray q1)) n = .ok d ∧
        MonofractalNear d.dwt q1 n h ε 0}
  let badB : Set Ω := {ω | ¬ ∃ d, mfAnalysisFull (asFloats (mixture β (x ω))) j1 (some j2) 1 0 weighted wt .inf (some (.ndarray q2)) n = .ok d ∧
        MonofractalNear d.dwt q2 n h ε 0}
  let badC : Set Ω := {ω | ¬ ∀ j : ℕ, 1 ≤ j → j ≤ j2 → ∀ p ∈ F, |(∑ k ∈ interior N wt.dec_hi.length j,
        pairTest (fun r => α r / √(∑ r, α r ^ 2)) (fun r => β r / √(∑ r, β r ^ 2)) p fun r => (w ω).wt_coefs.number j k r / √(c * τ j)) / (interior N wt.dec_hi.length j).card - pairMoment (fun r => α r / √(∑ r, α r ^ 2)) (fun r => β r / √(∑ r, β r ^ 2)) p| < η}
  let zero : (Fin R → ℝ) → Set Ω := fun γ => ⋃ j ∈ Icc 1 j2, ⋃ k ∈ interior N wt.dec_hi.length j, {ω | (W γ ω).wt_coefs.number j k 0 = 0}
  have hzero : ∀ γ : Fin R → ℝ, 0 < ∑ r, γ r ^ 2 → μ (zero γ) = 0 := by
    intro γ hγ
    refine (measure_biUnion_null_iff (Finset.countable_toSet (Icc 1 j2))).2 ?_
    intro j hj
    obtain ⟨hj1, hj2⟩ := mem_Icc.1 hj
    obtain ⟨-, -, a3⟩ := hnz (mul_pos hγ hc) (hP γ) one_ne_zero hj1 (hj2.trans (hlong γ ω₀).2)
    refine (measure_biUnion_null_iff (Finset.countable_toSet (interior N wt.dec_hi.length j))).2 ?_
    intro k hk
    exact (a3 0 k hk).2
  have hbA : μ badA ≤ ENNReal.ofReal (|Ca| / N) := (hNa (mul_pos ha hc) hN1 (hGm α) .inf weighted 0 (Or.inr ⟨rfl, hF⟩)).trans
    (ENNReal.ofReal_le_ofReal (div_le_div_of_nonneg_right (le_abs_self _) hNr.le))
  have hbB : μ badB ≤ ENNReal.ofReal (|Cb| / N) := (hNb (mul_pos hb hc) hN1 (hGm β) .inf weighted 0 (Or.inr ⟨rfl, hF⟩)).trans
    (ENNReal.ofReal_le_ofReal (div_le_div_of_nonneg_right (le_abs_self _) hNr.le))
  have hbC : μ badC ≤ ENNReal.ofReal (Cc / N) := hNc hc hPx hN3 (fun ω => (hlongx ω).2)
  refine (measure_mono (t := ((badA ∪ badB) ∪ badC) ∪ (zero α ∪ zero β)) ?_).trans ?_
  swap
  · refine (measure_union_le _ _).trans ?_
    have hz : μ (zero α ∪ zero β) = 0 := measure_union_null (hzero α ha) (hzero β hb)
    rw [hz, add_zero]
    refine (measure_union_le _ _).trans ((add_le_add_left (measure_union_le _ _) _).trans ?_)
    refine (add_le_add (add_le_add hbA hbB) hbC).trans ?_
    rw [← ENNReal.ofReal_add (by positivity) (by positivity), ← ENNReal.ofReal_add (by positivity) (by positivity)]
    refine ENNReal.ofReal_le_ofReal ?_
    rw [← add_div, ← add_div]
    refine div_le_div_of_nonneg_right ?_ hNr.le
    have : (0:ℝ) ≤ N₀ := by positivity
    linarith
  intro ω hω
  by_contra hgood
  simp only [Set.mem_union, not_or] at hgood
  obtain ⟨⟨⟨g1, g2⟩, g3⟩, g4, g5⟩ := hgood
  apply hω
  simp only [badA, badB, badC, Set.mem_ofPred_eq, not_not] at g1 g2 g3
  refine hcore hc hN4 hG weighted hw hW ω g1 g2 g3 ?_ ?_
  · intro j h1 h2 k hk h0
    exact g4 (Set.mem_biUnion (mem_Icc.2 ⟨h1, h2⟩) (Set.mem_biUnion hk h0))
  · intro j h1 h2 k hk h0
    exact g5 (Set.mem_biUnion (mem_Icc.2 ⟨h1, h2⟩) (Set.mem_biUnion hk h0))

/-- **C137, signals with stationary increments**: the two signals are linear combinations (`α`, `β`) of the columns of an array of
independent Gaussian signals with stationary increments and a scaling exponent `h`.  If `j1` is large enough, and the signals are long
enough, then with probability at least `1 - δ` the call `bivariate_analysis_full` returns, and all the exponents `zeta(e1, e2)` and all
the log-cumulants of orders `(a, b)` that it computes from the coefficients are within `ε` of those of monofractal signals, however
correlated the two signals are. -/
theorem C137_increments {M : ℕ} (hM : VanishingMoments wt.dec_hi M) (hM1 : 1 ≤ M) (hwt : wt.Valid) (hF : 4 ≤ wt.dec_hi.length) {G : ℤ → ℝ}
    {h b : ℝ} (hK : ScalingKernel wt G h b) {R : ℕ} {α β : Fin R → ℝ} (hα : α ≠ 0) (hβ : β ≠ 0) (q1 q2 : List ℝ) (n : ℕ)
    (hn1 : q1.Nodup) (hn2 : q2.Nodup) (hq1 : (0:ℝ) ∈ q1 ∧ (1:ℝ) ∈ q1 ∧ (2:ℝ) ∈ q1) (hq2 : (0:ℝ) ∈ q2 ∧ (1:ℝ) ∈ q2 ∧ (2:ℝ) ∈ q2)
    (hl1 : ∀ e ∈ q1, -(1 / 4) < e) (hl2 : ∀ e ∈ q2, -(1 / 4) < e) (hn : 2 ≤ n) (ε δ : ℝ) (hε : 0 < ε) (hδ : 0 < δ) :
    ∃ j₀ : ℕ, 1 ≤ j₀ ∧ ∀ j1 j2 : ℕ, j₀ ≤ j1 → j1 < j2 → ∃ N₀ : ℕ,
    ∀ {Ω : Type u} [MeasurableSpace Ω] {μ : Measure Ω} {N : ℕ} {x : Ω → List (Fin R → ℝ)} {A : ℕ → ℝ} {c : ℝ}, 0 < c → N₀ ≤ N →
      GaussianArray μ N x (fun n m => A n + A m - c * G ((n : ℤ) - m)) → ∀ weighted : Bool,
      μ {ω | ¬ ∃ d l, bivariateAnalysisFull (asFloats (mixture α (x ω))) (asFloats (mixture β (x ω))) j1 (some (j2 : ℝ)) 1 0 weighted wt
          .inf (some (.ndarray q1)) (some (.ndarray q2)) n = .ok (d, l) ∧ BiMonofractalNear d q1 q2 n h ε} ≤ ENNReal.ofReal δ := by
  obtain ⟨j₀, hj₀, h⟩ := bi_estimates_rate.{u} hM hM1 hwt hF hK hα hβ q1 q2 n hn1 hn2 hq1 hq2 hl1 hl2 hn ε hε
  refine ⟨j₀, hj₀, fun j1 j2 h3 h4 => ?_⟩
  obtain ⟨C, hC⟩ := h j1 j2 h3 h4
  obtain ⟨n₀, hn₀⟩ := exists_nat_gt (C / δ)
  refine ⟨n₀ + 1, ?_⟩
  intro Ω _ μ N x A c hc hN hG weighted
  refine (hC hc (by omega) hG weighted).trans (ENNReal.ofReal_le_ofReal ?_)
  have hN1 : (n₀ : ℝ) + 1 ≤ N := by exact_mod_cast hN
  have hn0 : (0:ℝ) ≤ n₀ := by positivity
  rw [div_le_iff₀ (by linarith)]
  rw [div_lt_iff₀ hδ] at hn₀
  nlinarith

/-- **C137, end to end**: simulate `R` independent fractional Brownian motions with `fbm`, form two signals by combining the columns with
the coefficients `α` and `β`, and pass them to `bivariate_analysis_full`. -/
theorem C137_fbm {M : ℕ} (hM : VanishingMoments wt.dec_hi M) (hM1 : 1 ≤ M) (hwt : wt.Valid) (ho : OrthonormalBank wt)
    (hF : 4 ≤ wt.dec_hi.length) {H : ℝ} (h0 : 0 < H) (h1 : H < 1) (hH : 4 * H - 4 * M < -1) {R : ℕ} {α β : Fin R → ℝ} (hα : α ≠ 0)
    (hβ : β ≠ 0) (q1 q2 : List ℝ) (n : ℕ)
    (hn1 : q1.Nodup) (hn2 : q2.Nodup) (hq1 : (0:ℝ) ∈ q1 ∧ (1:ℝ) ∈ q1 ∧ (2:ℝ) ∈ q1) (hq2 : (0:ℝ) ∈ q2 ∧ (1:ℝ) ∈ q2 ∧ (2:ℝ) ∈ q2)
    (hl1 : ∀ e ∈ q1, -(1 / 4) < e) (hl2 : ∀ e ∈ q2, -(1 / 4) < e) (hn : 2 ≤ n) (ε δ : ℝ) (hε : 0 < ε) (hδ : 0 < δ) :
    ∃ j₀ : ℕ, 1 ≤ j₀ ∧ ∀ j1 j2 : ℕ, j₀ ≤ j1 → j1 < j2 → ∃ N₀ : ℕ,
    ∀ {Ω : Type u} [MeasurableSpace Ω] {μ : Measure Ω} {gen : Ω → ℕ → ℝ}, StdNormal μ gen →
    ∀ {N : ℕ} {sigma : ℝ} {dt : Option ℝ} (z0 : Option (CArr R)), N₀ ≤ N → sigma ≠ 0 → (∀ d, dt = some d → 0 ≤ d) →
      ∃ x : Ω → RArr R, Returns (fbm R N H sigma dt "cme" z0) gen x ∧ ∀ weighted : Bool,
      μ {ω | ¬ ∃ d l, bivariateAnalysisFull (asFloats (mixture α (x ω))) (asFloats (mixture β (x ω))) j1 (some (j2 : ℝ)) 1 0 weighted wt
          .inf (some (.ndarray q1)) (some (.ndarray q2)) n = .ok (d, l) ∧ BiMonofractalNear d q1 q2 n H ε} ≤ ENNReal.ofReal δ := by
  obtain ⟨j₀, hj₀, h⟩ := C137_increments.{u} hM hM1 hwt hF (powerLaw_kernel hM hM1 hwt ho h0 h1 hH) hα hβ q1 q2 n hn1 hn2 hq1 hq2 hl1 hl2 hn
    ε δ hε hδ
  refine ⟨j₀, hj₀, ?_⟩
  intro j1 j2 hj01 hj12
  obtain ⟨N₀, hN₀⟩ := h j1 j2 hj01 hj12
  refine ⟨max N₀ 2, ?_⟩
  intro Ω _ μ gen hg N sigma dt z0 hN hs hdt
  have hR : R ≠ 0 := by
    rintro rfl; exact hα (Subsingleton.elim _ _)
  have hN2 := (le_max_right _ _).trans hN
  obtain ⟨x, hx, hG, -⟩ := C85_fbm (R := R) (sigma := sigma) z0 h0 h1.le hN2 hdt hR hg
  have hstep := (fgnDt_eq (by omega : N ≠ 0) hdt).2
  rw [fbm_powerLaw H sigma hstep.le] at hG
  refine ⟨x, hx, fun weighted => ?_⟩
  refine hN₀ (A := fun n : ℕ => sigma ^ 2 / 2 * |((n + 1 : ℕ) : ℝ) * effStep dt N| ^ (2 * H))
    (c := sigma ^ 2 / 2 * effStep dt N ^ (2 * H)) (by positivity) ((le_max_left _ _).trans hN) ?_ weighted
  convert hG using 7
  push_cast; rfl

/-- **C137 for noise**: the same for `R` independent fractional Gaussian noises simulated with `fgn`; the exponent is `H - 1`. -/
theorem C137_fgn {M : ℕ} (hM : VanishingMoments wt.dec_hi M) (hM1 : 1 ≤ M) (hwt : wt.Valid) (ho : OrthonormalBank wt)
    (hF : 4 ≤ wt.dec_hi.length) {H : ℝ} (h0 : 0 < H) (h1 : H < 1) (hr : 1 / 2 ≤ H ∨ RegularWavelet wt) {R : ℕ} {α β : Fin R → ℝ} (hα : α ≠ 0)
    (hβ : β ≠ 0) (q1 q2 : List ℝ) (n : ℕ)
    (hn1 : q1.Nodup) (hn2 : q2.Nodup) (hq1 : (0:ℝ) ∈ q1 ∧ (1:ℝ) ∈ q1 ∧ (2:ℝ) ∈ q1) (hq2 : (0:ℝ) ∈ q2 ∧ (1:ℝ) ∈ q2 ∧ (2:ℝ) ∈ q2)
    (hl1 : ∀ e ∈ q1, -(1 / 4) < e) (hl2 : ∀ e ∈ q2, -(1 / 4) < e) (hn : 2 ≤ n) (ε δ : ℝ) (hε : 0 < ε) (hδ : 0 < δ) :
    ∃ j₀ : ℕ, 1 ≤ j₀ ∧ ∀ j1 j2 : ℕ, j₀ ≤ j1 → j1 < j2 → ∃ N₀ : ℕ,
    ∀ {Ω : Type u} [MeasurableSpace Ω] {μ : Measure Ω} {gen : Ω → ℕ → ℝ}, StdNormal μ gen →
    ∀ {N : ℕ} {sigma : ℝ} {dt : Option ℝ} (z0 : Option (CArr R)), N₀ ≤ N → sigma ≠ 0 → (∀ d, dt = some d → 0 ≤ d) →
      ∃ x : Ω → RArr R, Returns (fgn R N H sigma dt "cme" z0) gen x ∧ ∀ weighted : Bool,
      μ {ω | ¬ ∃ d l, bivariateAnalysisFull (asFloats (mixture α (x ω))) (asFloats (mixture β (x ω))) j1 (some (j2 : ℝ)) 1 0 weighted wt
          .inf (some (.ndarray q1)) (some (.ndarray q2)) n = .ok (d, l) ∧ BiMonofractalNear d q1 q2 n (H - 1) ε} ≤ ENNReal.ofReal δ := by
  obtain ⟨b, hK⟩ := noise_kernel hM hM1 hwt ho h0 h1 hr
  obtain ⟨j₀, hj₀, h⟩ := C137_increments.{u} hM hM1 hwt hF hK hα hβ q1 q2 n hn1 hn2 hq1 hq2 hl1 hl2 hn ε δ hε hδ
  refine ⟨j₀, hj₀, ?_⟩
  intro j1 j2 hj01 hj12
  obtain ⟨N₀, hN₀⟩ := h j1 j2 hj01 hj12
  refine ⟨max N₀ 2, ?_⟩
  intro Ω _ μ gen hg N sigma dt z0 hN hs hdt
  have hR : R ≠ 0 := by
    rintro rfl; exact hα (Subsingleton.elim _ _)
  have hN2 := (le_max_right _ _).trans hN
  obtain ⟨x, hx, hG, -⟩ := C85_fgn (R := R) (sigma := sigma) z0 h0 h1.le hN2 hdt hR hg
  have hstep := (fgnDt_eq (by omega : N ≠ 0) hdt).2
  refine ⟨x, hx, fun weighted => ?_⟩
  have e : (fun n m : ℕ => fgnCovariance H sigma (effStep dt N) (n * effStep dt N) (m * effStep dt N)) =
      fun n m : ℕ => (0:ℝ) + 0 - sigma ^ 2 * effStep dt N ^ (2 * H) * -noiseKernel (2 * H) ((n : ℤ) - m) := by
    funext n m
    rw [fgn_noiseKernel H sigma hstep.le]
    ring
  rw [e] at hG
  exact hN₀ (A := fun _ => 0) (by positivity) ((le_max_left _ _).trans hN) hG weighted

/-! The hypotheses are met: with `db2`, two columns, every `0 < H < 1`, and every correlation `ρ` between the two signals. -/
example (H : ℝ) (h0 : 0 < H) (h1 : H < 1) (ρ : ℝ) (ε δ : ℝ) (hε : 0 < ε) (hδ : 0 < δ) : ∃ j1 j2 N : ℕ, 1 ≤ j1 ∧ j1 < j2 ∧
    ∃ (Ω : Type) (_ : MeasurableSpace Ω) (μ : Measure Ω) (gen : Ω → ℕ → ℝ) (x : Ω → RArr 2), StdNormal μ gen ∧
    Returns (fbm 2 N H 1 none "cme" none) gen x ∧
    μ {ω | ¬ ∃ d l, bivariateAnalysisFull (asFloats (mixture ![1, 0] (x ω))) (asFloats (mixture ![ρ, √(1 - ρ ^ 2)] (x ω))) j1
        (some (j2 : ℝ)) 1 0 true db2 .inf (some (.ndarray [0, 1, 2])) (some (.ndarray [0, 1, 2, -1 / 5])) 3 = .ok (d, l) ∧
      BiMonofractalNear d [0, 1, 2] [0, 1, 2, -1 / 5] 3 H ε} ≤ ENNReal.ofReal δ := by
  obtain ⟨hv, ho, hm⟩ := db2_orthonormal
  have hβ : (![ρ, √(1 - ρ ^ 2)] : Fin 2 → ℝ) ≠ 0 := by
    intro h
    have a1 := congrFun h 0
    have a2 := congrFun h 1
    simp only [Matrix.cons_val_zero, Matrix.cons_val_one, Pi.zero_apply] at a1 a2
    rw [a1] at a2
    norm_num at a2
  obtain ⟨j₀, hj₀, h⟩ := C137_fbm hm (by norm_num) hv ho (by simp [db2]) h0 h1 (by push_cast; linarith) (α := ![1, 0])
    (fun h => by have := congrFun h 0; simp at this) hβ [0, 1, 2] [0, 1, 2, -1 / 5] 3 (by norm_num) (by norm_num) (by norm_num) (by norm_num)
    (by intro e he; simp only [List.mem_cons, List.not_mem_nil, or_false] at he; rcases he with rfl | rfl | rfl <;> norm_num)
    (by intro e he; simp only [List.mem_cons, List.not_mem_nil, or_false] at he; rcases he with rfl | rfl | rfl | rfl <;> norm_num)
    (by norm_num) ε δ hε hδ
  obtain ⟨N₀, hN₀⟩ := h j₀ (j₀ + 1) le_rfl (by omega)
  obtain ⟨Ω, m, μ, gen, hg⟩ := exists_stdNormal
  obtain ⟨x, hx, hb⟩ := hN₀ hg (sigma := 1) (dt := none) none le_rfl one_ne_zero (by intro d hd; cases hd)
  exact ⟨j₀, j₀ + 1, N₀, hj₀, by omega, Ω, m, μ, gen, x, hg, hx, hb true⟩

/-- **C107 for noise**: the coherence of two combinations of independent fractional Gaussian noises returned by `fgn` is, for long signals
and at all scales up to `j2`, within `ε` of the correlation of the two signals with probability at least `1 - δ`. -/
theorem C107_fgn {M : ℕ} (hM : VanishingMoments wt.dec_hi M) (hM1 : 1 ≤ M) (hwt : wt.Valid) (ho : OrthonormalBank wt)
    (hF : 4 ≤ wt.dec_hi.length) {H : ℝ} (h0 : 0 < H) (h1 : H < 1) (hr : 1 / 2 ≤ H ∨ RegularWavelet wt) {R : ℕ} {α β : Fin R → ℝ} (hα : α ≠ 0)
    (hβ : β ≠ 0) (g nm : ℝ) (hnm : nm ≠ 0) (j2 : ℕ) (ε δ : ℝ) (hε : 0 < ε) (hδ : 0 < δ) : ∃ N₀ : ℕ,
    ∀ {Ω : Type u} [MeasurableSpace Ω] {μ : Measure Ω} {gen : Ω → ℕ → ℝ}, StdNormal μ gen →
    ∀ {N : ℕ} {sigma : ℝ} {dt : Option ℝ} (z0 : Option (CArr R)), N₀ ≤ N → sigma ≠ 0 → (∀ d, dt = some d → 0 ≤ d) →
      ∃ x : Ω → RArr R, Returns (fgn R N H sigma dt "cme" z0) gen x ∧
      ∀ (j1 : ℕ) (weighted : Bool) (q1 q2 : List ℝ) (n : ℕ), 1 ≤ j1 → j1 ≤ j2 → q1.Nodup → q2.Nodup →
      ((0:ℝ) ∈ q1 ∧ (1:ℝ) ∈ q1 ∧ (2:ℝ) ∈ q1) → ((0:ℝ) ∈ q2 ∧ (1:ℝ) ∈ q2 ∧ (2:ℝ) ∈ q2) → 2 ≤ n →
      μ {ω | ¬ ∃ d l, bivariateAnalysisFull (asFloats (mixture α (x ω))) (asFloats (mixture β (x ω))) j1 (some (j2 : ℝ)) nm g weighted wt
          .inf (some (.ndarray q1)) (some (.ndarray q2)) n = .ok (d, l) ∧
        ∀ j : ℕ, 1 ≤ j → j ≤ j2 → ∃ z, d.structure_.coherence[j - 1]? = some z ∧ Near z (correlation α β) ε} ≤ ENNReal.ofReal δ := by
  obtain ⟨b, hK⟩ := noise_kernel hM hM1 hwt ho h0 h1 hr
  obtain ⟨N₀, h⟩ := C107_increments.{u} hM hM1 hwt hF hK hα hβ g nm hnm j2 ε δ hε hδ
  refine ⟨max N₀ 2, ?_⟩
  intro Ω _ μ gen hg N sigma dt z0 hN hs hdt
  have hR : R ≠ 0 := by
    rintro rfl; exact hα (Subsingleton.elim _ _)
  have hN2 := (le_max_right _ _).trans hN
  obtain ⟨x, hx, hG, -⟩ := C85_fgn (R := R) (sigma := sigma) z0 h0 h1.le hN2 hdt hR hg
  have hstep := (fgnDt_eq (by omega : N ≠ 0) hdt).2
  have e : (fun n m : ℕ => fgnCovariance H sigma (effStep dt N) (n * effStep dt N) (m * effStep dt N)) =
      fun n m : ℕ => (0:ℝ) + 0 - sigma ^ 2 * effStep dt N ^ (2 * H) * -noiseKernel (2 * H) ((n : ℤ) - m) := by
    funext n m
    rw [fgn_noiseKernel H sigma hstep.le]
    ring
  rw [e] at hG
  refine ⟨x, hx, fun j1 weighted q1 q2 n a1 a2 a3 a4 a5 a6 a7 => ?_⟩
  exact h (A := fun _ => 0) (by positivity) ((le_max_left _ _).trans hN) hG j1 weighted q1 q2 n a1 a2 a3 a4 a5 a6 a7

/-! The hypotheses are met: white noise (`H = 1/2`) and `db2`; the coherence approaches any prescribed `ρ`. -/
example (ρ : ℝ) (hρ : |ρ| ≤ 1) (j2 : ℕ) (hj2 : 1 ≤ j2) (ε δ : ℝ) (hε : 0 < ε) (hδ : 0 < δ) : ∃ N : ℕ,
    ∃ (Ω : Type) (_ : MeasurableSpace Ω) (μ : Measure Ω) (gen : Ω → ℕ → ℝ) (x : Ω → RArr 2), StdNormal μ gen ∧
    Returns (fgn 2 N (1 / 2) 1 none "cme" none) gen x ∧
    μ {ω | ¬ ∃ d l, bivariateAnalysisFull (asFloats (mixture ![1, 0] (x ω))) (asFloats (mixture ![ρ, √(1 - ρ ^ 2)] (x ω))) (1 : ℕ)
        (some (j2 : ℝ)) 1 0 true db2 .inf (some (.ndarray [0, 1, 2])) (some (.ndarray [0, 1, 2])) 2 = .ok (d, l) ∧
      ∀ j : ℕ, 1 ≤ j → j ≤ j2 → ∃ z, d.structure_.coherence[j - 1]? = some z ∧ Near z ρ ε} ≤ ENNReal.ofReal δ := by
  obtain ⟨hv, ho, hm⟩ := db2_orthonormal
  have hβ : (![ρ, √(1 - ρ ^ 2)] : Fin 2 → ℝ) ≠ 0 := by
    intro h
    have a1 := congrFun h 0
    have a2 := congrFun h 1
    simp only [Matrix.cons_val_zero, Matrix.cons_val_one, Pi.zero_apply] at a1 a2
    rw [a1] at a2
    norm_num at a2
  obtain ⟨N₀, hN₀⟩ := C107_fgn hm (by norm_num) hv ho (by simp [db2]) (H := 1 / 2) (by norm_num) (by norm_num) (Or.inl le_rfl) (α := ![1, 0])
    (fun h => by have := congrFun h 0; simp at this) hβ 0 1 one_ne_zero j2 ε δ hε hδ
  obtain ⟨Ω, m, μ, gen, hg⟩ := exists_stdNormal
  obtain ⟨x, hx, hb⟩ := hN₀ hg (N := N₀) (sigma := 1) (dt := none) none le_rfl one_ne_zero (by intro d hd; cases hd)
  have := hb 1 true [0, 1, 2] [0, 1, 2] 2 le_rfl hj2 (by norm_num) (by norm_num) (by norm_num) (by norm_num) le_rfl
  rw [correlation_pair hρ] at this
  exact ⟨N₀, Ω, m, μ, gen, x, hg, hx, this⟩

end

end MFA
