import Verif.Props.Estimators
import Verif.Props.Full
import Verif.Props.SimulGauss

/-!
# Property C101: end to end, the analysis recovers the Hurst exponent of simulated fractional Brownian motion
-/

namespace MFA

universe u

open Classical Finset MeasureTheory ProbabilityTheory

noncomputable section

variable {wt : Wavelet}

/-- All the estimates made from the wavelet coefficients are within `ε` of those of a monofractal signal of exponent `H`. -/
def MonofractalNear {R : ℕ} (v : MFVar R) (q : List ℝ) (n : ℕ) (H ε : ℝ) (r : Fin R) : Prop :=
  Near (v.structure_.H r) H ε ∧
  (∀ (i : ℕ) (e : ℝ), q[i]? = some e → ∃ z, v.structure_.zeta[i]? = some z ∧ Near (z r) (e * H) ε) ∧
  (∀ i, i < n → ∃ c, v.cumulants.log_cumulants[i]? = some c ∧ Near (c r) (if i = 0 then H else 0) ε) ∧
  ∀ i, i < q.length → ∃ hq Dq, v.spectrum.hq[i]? = some hq ∧ v.spectrum.Dq[i]? = some Dq ∧ Near (hq r) H ε ∧ Near (Dq r) 1 ε

theorem Near.mono {x : Fl} {v ε ε' : ℝ} (h : Near x v ε) (he : ε ≤ ε') : Near x v ε' := by
  obtain ⟨t, h1, h2⟩ := h
  exact ⟨t, h1, h2.trans he⟩

/-- A long enough signal has the scales up to `j2`, and `j2` is not lowered. -/
theorem long_enough {R : ℕ} (hR : R ≠ 0) {N : ℕ} {x : Fin R → ℤ → ℝ} {p : PExp} (hwt : wt.Valid) (hp : p = .none ∨ 4 ≤ wt.dec_hi.length)
    {j0 : ℤ} {j2 : ℕ} (hj2 : 1 ≤ j2) {g nm : ℝ} {weighted : Bool} (hN : 2 ^ (j2 + 1) * (wt.dec_hi.length + 1) ≤ N) {w : WT R}
    (hw : waveletAnalysis (sampled N x) p wt j0 (some (j2 : ℝ)) g nm weighted = .ok w) :
    w.j2_eff = j2 ∧ j2 ≤ w.wt_coefs.values.length := by
  have hN0 : N ≠ 0 := by
    have : 0 < 2 ^ (j2 + 1) * (wt.dec_hi.length + 1) := by positivity
    omega
  obtain ⟨L, hL⟩ : ∃ L, decompositionLevel N wt = .ok L := by
    rw [decompositionLevel, maxLevel, if_neg hN0]; exact ⟨_, rfl⟩
  have hjL : (j2 : ℤ) < L := by
    have h := ((maxLevel_iff hN0 L).1 hL).2
    have h2 : ((2:ℝ) ^ ((j2 : ℤ) + 1)) * ((wt.dec_hi.length : ℝ) + 1) ≤ N := by
      rw [show ((j2 : ℤ) + 1) = ((j2 + 1 : ℕ) : ℤ) by push_cast; ring, zpow_natCast]
      exact_mod_cast hN
    have h3 : (2:ℝ) ^ ((j2 : ℤ) + 1) < (2:ℝ) ^ (L + 1) :=
      lt_of_mul_lt_mul_right (h2.trans_lt h) (by positivity)
    have := (zpow_lt_zpow_iff_right₀ (by norm_num : (1:ℝ) < 2)).1 h3
    omega
  have h1 := admissible_j2 hR hwt hp hL (j1 := (j2 : ℤ)) (by exact_mod_cast hj2) hjL (by rintro b hb; cases hb; simp) hw
  obtain ⟨h2, h3, -⟩ := C02_j2_eff_le hw
  have h4 := h2 j2 rfl (by positivity)
  have h5 : w.j2_eff ≤ (j2 : ℤ) := by exact_mod_cast h4
  have h6 : w.j2_eff = j2 := le_antisymm h5 h1
  refine ⟨h6, ?_⟩
  rw [h6] at h3
  exact_mod_cast h3

/-- `mf_analysis_full` on a long Gaussian signal with stationary increments, for any function `G` with a scaling exponent. -/
theorem estimates_recovered {M : ℕ} (hM : VanishingMoments wt.dec_hi M) (hM1 : 1 ≤ M) (hwt : wt.Valid) {G : ℤ → ℝ}
    {h' β : ℝ} (hK : ScalingKernel wt G h' β) (q : List ℝ) (n : ℕ) (h2 : (2:ℝ) ∈ q) (hq : ∀ e ∈ q, -(1 / 2) < e)
    (ε δ : ℝ) (hε : 0 < ε) (hδ : 0 < δ) : ∃ j₀ : ℕ, 1 ≤ j₀ ∧ ∀ j1 j2 : ℕ, j₀ ≤ j1 → j1 < j2 → ∃ N₀ : ℕ,
    ∀ {Ω : Type u} [MeasurableSpace Ω] {μ : Measure Ω} {R N : ℕ} {x : Ω → List (Fin R → ℝ)} {A : ℕ → ℝ} {c : ℝ}, 0 < c → N₀ ≤ N →
      GaussianArray μ N x (fun n m => A n + A m - c * G ((n : ℤ) - m)) →
      ∀ (p : PExp) (weighted : Bool) (r : Fin R), p = .none ∨ (p = .inf ∧ 4 ≤ wt.dec_hi.length) →
      μ {ω | ¬ ∃ d, mfAnalysisFull (asFloats (x ω)) j1 (some j2) 1 0 weighted wt p (some (.ndarray q)) n = .ok d ∧
        MonofractalNear d.dwt q n h' ε r} ≤ ENNReal.ofReal δ := by
  obtain ⟨B, hB, h⟩ := estimates_consistentG.{u} hM hM1 hwt hK 0 1
  have h0 := hK.pos
  have hb : coefExponent h' 0 1 / 2 = h' := by rw [coefExponent_default]; ring
  -- the exponents are bounded
  obtain ⟨Q, hQ1, hQ⟩ : ∃ Q : ℝ, 1 ≤ Q ∧ ∀ e ∈ q, |e| ≤ Q := by
    clear h2 hq
    induction q with
    | nil => exact ⟨1, le_rfl, by simp⟩
    | cons a q ih =>
      obtain ⟨Q, h1, h2⟩ := ih
      refine ⟨max Q |a|, le_max_of_le_left h1, ?_⟩
      intro e he
      rcases List.mem_cons.1 he with rfl | he
      · exact le_max_right _ _
      · exact (h2 e he).trans (le_max_left _ _)
  obtain ⟨j₀, hj₀1, hj₀⟩ : ∃ j₀ : ℕ, 1 ≤ j₀ ∧ ∀ j1 : ℕ, j₀ ≤ j1 → Q * B * (2:ℝ) ^ (-(2 * β * j1)) ≤ ε / 2 := by
    have hρ0 : (0:ℝ) ≤ (2:ℝ) ^ (-(2 * β)) := by positivity
    have hρ1 : (2:ℝ) ^ (-(2 * β)) < 1 := Real.rpow_lt_one_of_one_lt_of_neg (by norm_num) (by linarith)
    have ht : Filter.Tendsto (fun j : ℕ => Q * B * ((2:ℝ) ^ (-(2 * β))) ^ j) Filter.atTop (nhds (Q * B * 0)) :=
      (tendsto_pow_atTop_nhds_zero_of_lt_one hρ0 hρ1).const_mul _
    rw [mul_zero] at ht
    obtain ⟨j₀, hj₀⟩ := Filter.eventually_atTop.1 (ht.eventually_le_const (by positivity : (0:ℝ) < ε / 2))
    refine ⟨j₀ + 1, by omega, fun j1 hj1 => ?_⟩
    have := hj₀ j1 (by omega)
    rwa [← Real.rpow_natCast, ← Real.rpow_mul (by norm_num), show -(2 * β) * (j1 : ℝ) = -(2 * β * j1) by ring] at this
  refine ⟨j₀, hj₀1, ?_⟩
  intro j1 j2 hj01 hj12
  have hj1 : 1 ≤ j1 := hj₀1.trans hj01
  obtain ⟨N₀, hN₀⟩ := h q n hq j1 j2 hj1 hj12 (ε / 2) δ (by positivity) hδ
  refine ⟨max N₀ (2 ^ (j2 + 1) * (wt.dec_hi.length + 1)), ?_⟩
  intro Ω _ μ R N x A c hc hN hG p weighted r hp
  have hR : R ≠ 0 := fun h0 => by subst h0; exact r.elim0
  have hN2 := (le_max_right _ _).trans hN
  have hN0 : N ≠ 0 := by
    have : 0 < 2 ^ (j2 + 1) * (wt.dec_hi.length + 1) := by positivity
    omega
  have hne : ∀ ω, asFloats (x ω) ≠ [] := by
    intro ω h0; have := congrArg List.length h0; simp [asFloats, hG.length ω] at this; exact hN0 this
  choose w hw hfull using fun ω => C48_total (asFloats (x ω)) p (hp.imp id (·.1)) wt j1 (some (j2 : ℝ)) 0 1 weighted (some (.ndarray q)) n hR
    (hne ω) one_ne_zero
  have hlong : ∀ ω, (w ω).j2_eff = j2 ∧ j2 ≤ (w ω).wt_coefs.values.length := by
    intro ω
    have h0 := hw ω
    rw [asFloats_sampled (hG.length ω)] at h0
    exact long_enough hR hwt (hp.imp id (·.2)) (by omega) hN2 h0
  have hP : IncrementAnalysis μ wt G c 0 1 N x w := ⟨⟨A, hG⟩, p, j1, some (j2 : ℝ), weighted, hw⟩
  refine (measure_mono ?_).trans (hN₀ hc hP ((le_max_left _ _).trans hN) (fun ω => (hlong ω).2) r)
  intro ω hω
  simp only [Set.mem_ofPred_eq] at hω ⊢
  intro hall
  apply hω
  obtain ⟨hz, hv, hu, hc1, hcp⟩ := hall weighted
  obtain ⟨hj2, hlen⟩ := hlong ω
  obtain ⟨d, hd, -⟩ := hfull ω (by exact_mod_cast hj1) (by rw [hj2]; exact_mod_cast hj12.le) h2
  refine ⟨d, hd, ?_⟩
  unfold mfAnalysisFull at hd
  rw [hw ω] at hd
  simp only at hd
  rw [C47_bundle, hj2] at hd
  obtain ⟨⟨b1, b2, b3, -⟩, -⟩ := hd
  change StructFn.make _ (.ndarray q) _ _ _ = _ at b1
  change Spectrum.make _ _ _ _ (.ndarray q) = _ at b3
  obtain ⟨hreg, hg, -⟩ := hP.entries hwt ω
  have a1 : (1:ℤ) ≤ (j1 : ℤ) := by exact_mod_cast hj1
  have a2 : (j1 : ℤ) ≤ (j2 : ℤ) := by exact_mod_cast hj12.le
  have a3 : (j2 : ℤ) ≤ ((w ω).wt_coefs.values.length : ℤ) := by exact_mod_cast hlen
  rw [hreg.structFn a1 a2 a3 weighted q h2] at b1
  rw [hreg.cumulants a1 a2 a3 weighted n] at b2
  rw [hreg.spectrum a1 a2 a3 weighted (.ndarray q) (by rw [expos_ndarray]; simp; rintro rfl; cases h2)] at b3
  have hbias := hj₀ j1 hj01
  have hp2 : (0:ℝ) ≤ B * (2:ℝ) ^ (-(2 * β * j1)) := by positivity
  have hbias1 : B * (2:ℝ) ^ (-(2 * β * j1)) ≤ ε / 2 := by
    have : B * (2:ℝ) ^ (-(2 * β * j1)) ≤ Q * (B * (2:ℝ) ^ (-(2 * β * j1))) := le_mul_of_one_le_left hp2 hQ1
    linarith
  have hbq : ∀ e ∈ q, |e| * B * (2:ℝ) ^ (-(2 * β * j1)) ≤ ε / 2 := by
    intro e he
    have := mul_le_mul_of_nonneg_right (hQ e he) hp2
    linarith
  rw [hb] at hz hv hc1
  unfold MonofractalNear
  rw [← Except.ok.inj b1, ← Except.ok.inj b2, ← Except.ok.inj b3]
  refine ⟨?_, ?_, ?_, ?_⟩
  · obtain ⟨t, ht, htb⟩ := hz 2 h2
    refine ⟨t / 2 - 0, ?_, ?_⟩
    · show zetaF _ _ _ _ _ _ / Fl.fin 2 - Fl.fin (w ω).wt_coefs.gamint = _
      rw [ht, hg, Fl.fin_div two_ne_zero, Fl.fin_sub]
    · rw [show t / 2 - 0 - h' = (t - 2 * h') / 2 by ring, abs_div, abs_two, div_le_iff₀ (by norm_num)]
      have := hbq 2 h2
      linarith
  · intro i e he
    have hm := List.mem_of_getElem? he
    refine ⟨zetaF (w ω).wt_coefs j1 j2 weighted (.real e), by simp only [List.getElem?_map, he, Option.map_some], ?_⟩
    exact (hz e hm).mono (by have := hbq e hm; linarith)
  · intro i hi
    refine ⟨fun r => cumF (w ω).wt_coefs j1 j2 weighted n i r * Fl.fin log2e,
      by simp only [List.getElem?_map, List.getElem?_range hi, Option.map_some], ?_⟩
    split
    · rename_i h; subst h
      exact (hc1 hi).mono (by linarith)
    · exact (hcp i (by omega) hi).mono (by linarith)
  · intro i hi
    have hqi : q[i]? = some q[i] := List.getElem?_eq_getElem hi
    refine ⟨vF (w ω).wt_coefs j1 j2 weighted (.real q[i]), fun r => Fl.fin 1 + uF (w ω).wt_coefs j1 j2 weighted (.real q[i]) r,
      by simp only [expos_ndarray, List.getElem?_map, hqi, Option.map_some],
      by simp only [expos_ndarray, List.getElem?_map, hqi, Option.map_some], ?_, ?_⟩
    · exact (hv q[i] (List.getElem_mem hi)).mono (by linarith)
    · exact (hu q[i] (List.getElem_mem hi)).mono (by linarith)

/-- **C101, power law signals**: `mf_analysis_full` on a long Gaussian signal with stationary increments and variogram `2c|t|^(2H)`
(with the default normalisation and no fractional integration): for all `ε`, `δ` there is a smallest scale `j₀` such that whatever
the range `j₀ ≤ j1 < j2`, all the estimates obtained from the wavelet coefficients are within `ε` of the truth with probability at
least `1 - δ`, provided the signal is long enough. -/
theorem C101_power_law {M : ℕ} (hM : VanishingMoments wt.dec_hi M) (hM1 : 1 ≤ M) (hwt : wt.Valid) (ho : OrthonormalBank wt) {H : ℝ}
    (h0 : 0 < H) (h1 : H < 1) (hH : 4 * H - 4 * M < -1) (q : List ℝ) (n : ℕ) (h2 : (2:ℝ) ∈ q) (hq : ∀ e ∈ q, -(1 / 2) < e)
    (ε δ : ℝ) (hε : 0 < ε) (hδ : 0 < δ) : ∃ j₀ : ℕ, 1 ≤ j₀ ∧ ∀ j1 j2 : ℕ, j₀ ≤ j1 → j1 < j2 → ∃ N₀ : ℕ,
    ∀ {Ω : Type u} [MeasurableSpace Ω] {μ : Measure Ω} {R N : ℕ} {x : Ω → List (Fin R → ℝ)} {A : ℕ → ℝ} {c : ℝ}, 0 < c → N₀ ≤ N →
      GaussianArray μ N x (fun n m => A n + A m - c * |(n : ℝ) - m| ^ (2 * H)) →
      ∀ (p : PExp) (weighted : Bool) (r : Fin R), p = .none ∨ (p = .inf ∧ 4 ≤ wt.dec_hi.length) →
      μ {ω | ¬ ∃ d, mfAnalysisFull (asFloats (x ω)) j1 (some j2) 1 0 weighted wt p (some (.ndarray q)) n = .ok d ∧
        MonofractalNear d.dwt q n H ε r} ≤ ENNReal.ofReal δ := by
  obtain ⟨j₀, hj₀, h⟩ := estimates_recovered.{u} hM hM1 hwt (powerLaw_kernel hM hM1 hwt ho h0 h1 hH) q n h2 hq ε δ hε hδ
  refine ⟨j₀, hj₀, fun j1 j2 h3 h4 => ?_⟩
  obtain ⟨N₀, hN₀⟩ := h j1 j2 h3 h4
  refine ⟨N₀, ?_⟩
  intro Ω _ μ R N x A c hc hN hG
  have e : (fun n m : ℕ => A n + A m - c * |(((n : ℤ) - m : ℤ) : ℝ)| ^ (2 * H)) = fun n m : ℕ => A n + A m - c * |(n : ℝ) - m| ^ (2 * H) := by
    funext n m; push_cast; rfl
  refine hN₀ hc hN (A := A) ?_
  rw [e]; exact hG

/-- **C101, end to end**: simulate fractional Brownian motion of parameter `H` with `fbm`, analyse it with `mf_analysis_full`.  For all
`ε`, `δ` there is a scale `j₀` such that for every range `j₀ ≤ j1 < j2` and every long enough signal, with probability at least
`1 - δ` the call returns and the estimated `H`, `zeta(q)`, `c_m`, `h(q)` and `D(q)` are all within `ε` of `H`, `qH`, `H` (0 for
`m ≥ 2`), `H` and 1: the parameter given to the simulator is recovered.  The amplitude, the time step and the number of
realisations do not matter. -/
theorem C101_fbm {M : ℕ} (hM : VanishingMoments wt.dec_hi M) (hM1 : 1 ≤ M) (hwt : wt.Valid) (ho : OrthonormalBank wt) {H : ℝ}
    (h0 : 0 < H) (h1 : H < 1) (hH : 4 * H - 4 * M < -1) (q : List ℝ) (n : ℕ) (h2 : (2:ℝ) ∈ q) (hq : ∀ e ∈ q, -(1 / 2) < e)
    (ε δ : ℝ) (hε : 0 < ε) (hδ : 0 < δ) : ∃ j₀ : ℕ, 1 ≤ j₀ ∧ ∀ j1 j2 : ℕ, j₀ ≤ j1 → j1 < j2 → ∃ N₀ : ℕ,
    ∀ {Ω : Type u} [MeasurableSpace Ω] {μ : Measure Ω} {gen : Ω → ℕ → ℝ}, StdNormal μ gen →
    ∀ {N R : ℕ} {sigma : ℝ} {dt : Option ℝ} (z0 : Option (CArr R)), N₀ ≤ N → sigma ≠ 0 → (∀ d, dt = some d → 0 ≤ d) → R ≠ 0 →
      ∃ x : Ω → RArr R, Returns (fbm R N H sigma dt "cme" z0) gen x ∧
      ∀ (p : PExp) (weighted : Bool) (r : Fin R), p = .none ∨ (p = .inf ∧ 4 ≤ wt.dec_hi.length) →
      μ {ω | ¬ ∃ d, mfAnalysisFull (asFloats (x ω)) j1 (some j2) 1 0 weighted wt p (some (.ndarray q)) n = .ok d ∧
        MonofractalNear d.dwt q n H ε r} ≤ ENNReal.ofReal δ := by
  obtain ⟨j₀, hj₀, h⟩ := C101_power_law.{u} hM hM1 hwt ho h0 h1 hH q n h2 hq ε δ hε hδ
  refine ⟨j₀, hj₀, ?_⟩
  intro j1 j2 hj01 hj12
  obtain ⟨N₀, hN₀⟩ := h j1 j2 hj01 hj12
  refine ⟨max N₀ 2, ?_⟩
  intro Ω _ μ gen hg N R sigma dt z0 hN hs hdt hR
  have hN2 := (le_max_right _ _).trans hN
  obtain ⟨x, hx, hG, -⟩ := C85_fbm (R := R) (sigma := sigma) z0 h0 h1.le hN2 hdt hR hg
  have hstep := (fgnDt_eq (by omega : N ≠ 0) hdt).2
  rw [fbm_powerLaw H sigma hstep.le] at hG
  refine ⟨x, hx, fun p weighted r hp => ?_⟩
  exact hN₀ (by positivity) ((le_max_left _ _).trans hN) hG p weighted r hp

/-! The hypotheses are met: for `db2` and every `0 < H < 1`, with `q = [2, 1, -1/4]`. -/
example (H : ℝ) (h0 : 0 < H) (h1 : H < 1) (ε δ : ℝ) (hε : 0 < ε) (hδ : 0 < δ) : ∃ j1 j2 N : ℕ, 1 ≤ j1 ∧ j1 < j2 ∧
    ∃ (Ω : Type) (_ : MeasurableSpace Ω) (μ : Measure Ω) (gen : Ω → ℕ → ℝ) (x : Ω → RArr 2), StdNormal μ gen ∧
    Returns (fbm 2 N H 1 none "cme" none) gen x ∧
    μ {ω | ¬ ∃ d, mfAnalysisFull (asFloats (x ω)) j1 (some j2) 1 0 true db2 .inf (some (.ndarray [2, 1, -1 / 4])) 3 = .ok d ∧
        MonofractalNear d.dwt [2, 1, -1 / 4] 3 H ε 0} ≤ ENNReal.ofReal δ := by
  obtain ⟨hv, ho, hm⟩ := db2_orthonormal
  obtain ⟨j₀, hj₀, h⟩ := C101_fbm hm (by norm_num) hv ho h0 h1 (by push_cast; linarith) [2, 1, -1 / 4] 3 (by simp)
    (by intro e he; simp only [List.mem_cons, List.not_mem_nil, or_false] at he; rcases he with rfl | rfl | rfl <;> norm_num) ε δ hε hδ
  obtain ⟨N₀, hN₀⟩ := h j₀ (j₀ + 1) le_rfl (by omega)
  obtain ⟨Ω, m, μ, gen, hg⟩ := exists_stdNormal
  obtain ⟨x, hx, hb⟩ := hN₀ hg (R := 2) (sigma := 1) (dt := none) none le_rfl one_ne_zero (by intro d hd; cases hd) (by norm_num)
  exact ⟨j₀, j₀ + 1, N₀, hj₀, by omega, Ω, m, μ, gen, x, hg, hx, hb .inf true 0 (Or.inr ⟨rfl, by simp [db2]⟩)⟩

/-! The hypotheses of C98, C99 and C100 are met by arbitrarily long signals with as many scales as desired. -/
example (H : ℝ) (h0 : 0 < H) (h1 : H < 1) (j2 N₀ : ℕ) (hj2 : 1 ≤ j2) : VanishingMoments db2.dec_hi 2 ∧ db2.Valid ∧ OrthonormalBank db2 ∧
    4 * H - 4 * ((2 : ℕ) : ℝ) < -1 ∧ ∃ (Ω : Type) (_ : MeasurableSpace Ω) (μ : Measure Ω) (N : ℕ) (x : Ω → RArr 2) (w : Ω → WT 2),
    IsProbabilityMeasure μ ∧ N₀ ≤ N ∧ PowerLawAnalysis μ db2 H (1 / 2) 0 1 N x w ∧ ∀ ω, j2 ≤ (w ω).wt_coefs.values.length := by
  obtain ⟨hv, ho, hm⟩ := db2_orthonormal
  refine ⟨hm, hv, ho, by push_cast; linarith, ?_⟩
  obtain ⟨Ω, m, μ, gen, h⟩ := exists_stdNormal
  obtain ⟨N, hN⟩ : ∃ N, N = N₀ + 2 ^ (j2 + 1) * (db2.dec_hi.length + 1) + 2 := ⟨_, rfl⟩
  obtain ⟨x, hx, hG, -⟩ := C85_fbm (R := 2) (sigma := 1) (N := N) (dt := some 1) none h0 h1.le (by omega)
    (by intro d hd; cases hd; norm_num) (by norm_num) h
  have hw : ∀ ω, ∃ w, waveletAnalysis (asFloats (x ω)) .inf db2 1 (some (j2 : ℝ)) 0 1 false = .ok w := fun ω =>
    C05_total _ .inf (Or.inr rfl) db2 1 _ 0 1 false (by norm_num)
      (by intro h0; have := congrArg List.length h0; simp [asFloats, hG.length ω] at this; omega) (by norm_num)
  choose w hw using hw
  have he : effStep (some 1) N = 1 := by simp [effStep]
  rw [he, fbm_powerLaw H 1 zero_le_one] at hG
  have e : (1:ℝ) ^ 2 / 2 * 1 ^ (2 * H) = 1 / 2 := by rw [Real.one_rpow]; norm_num
  rw [e] at hG
  refine ⟨Ω, m, μ, N, x, w, h.isProbabilityMeasure, by omega, ⟨⟨_, hG⟩, _, _, _, _, hw⟩, fun ω => ?_⟩
  have h0 := hw ω
  rw [asFloats_sampled (hG.length ω)] at h0
  exact (long_enough (by norm_num) hv (Or.inr (by simp [db2])) hj2 (by omega) h0).2

end

end MFA
