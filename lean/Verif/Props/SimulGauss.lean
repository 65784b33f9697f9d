import Verif.Props.SimulFgn
import Verif.Props.SimulChol
import Verif.Lemmas.Gaussian

/-!
# C85: the simulated noises and motions are Gaussian processes with the right law
-/

namespace MFA

open MeasureTheory ProbabilityTheory

noncomputable section

variable {R : ℕ} {Ω : Type*} [MeasurableSpace Ω] {μ : Measure Ω} {g : Ω → ℕ → ℝ}

omit [MeasurableSpace Ω] in
theorem Returns.unique {f : Rng → Except PyErr (Sim R)} {x y : Ω → RArr R} (hx : Returns f g x) (hy : Returns f g y) : x = y := by
  funext ω
  obtain ⟨s, hs, h'⟩ := hx ω
  obtain ⟨t, ht, h⟩ := hy ω
  rw [hs] at ht
  cases ht
  rw [← h', h]

/-- The simulator never raises, uses exactly the first `A` values of the random stream, and its samples are linear functionals of
these. -/
def LinSim (A : ℕ) (f : Rng → Except PyErr (Sim R)) : Prop :=
  ∃ x : Rng → RArr R, (∀ g, ∃ s, f g = .ok s ∧ s.x = x g ∧ s.rng = g.skip A) ∧
    ∀ n r, (fun g => ((x g).getD n fun _ => 0) r) ∈ LinOn {i | i < A}

theorem LinSim.gaussian {A : ℕ} {f : Rng → Except PyErr (Sim R)} (hf : LinSim A f) (hg : StdNormal μ g) {x : Ω → RArr R}
    (hx : Returns f g x) {κ : Type*} [Finite κ] (φ : κ → ℕ × Fin R) : HasGaussianLaw (fun ω p => sample x (φ p).1 (φ p).2 ω) μ := by
  obtain ⟨y, hy, hl⟩ := hf
  have : x = fun ω => y (g ω) := hx.unique fun ω => by
    obtain ⟨s, h1, h2, -⟩ := hy (g ω)
    exact ⟨s, h1, h2⟩
  subst this
  exact hg.gaussian _ fun p => LinOn.lin (hl (φ p).1 (φ p).2)

theorem getD_oob {n N : ℕ} {a : RArr R} (h : a.length = N) (hn : ¬ n < N) (r : Fin R) : (a.getD n fun _ => 0) r = 0 := by
  rw [List.getD_eq_getElem?_getD, List.getElem?_eq_none (by omega)]
  rfl

theorem linSim_cme (cov : List ℝ) (h : 2 ≤ cov.length) :
    LinSim (2 * ((2 * cov.length - 2) * R)) (gaussianCme (R := R) cov cov.length none) := by
  refine ⟨_, fun g => ⟨_, gaussianCme_eq cov h g, rfl, rfl⟩, ?_⟩
  intro n r
  by_cases hn : n < cov.length
  · simp_rw [range_map_getD _ _ _ _ hn]
    refine LinOn.sum _ _ fun i hi => LinOn.const_mul _ (LinOn.eval ?_)
    have h1 := flat_pos_lt r (Finset.mem_range.1 (Finset.mem_product.1 hi).1)
    show noisePos cov.length R r i < _
    unfold noisePos
    split <;> omega
  · have : ∀ g : Rng, (((List.range cov.length).map fun (n : ℕ) (r : Fin R) =>
        ∑ i ∈ Finset.range (2 * cov.length - 2) ×ˢ (Finset.univ : Finset Bool),
          noiseCoef cov n i * g (noisePos cov.length R r i)).getD n fun _ => 0) r = 0 :=
      fun g => getD_oob (N := cov.length) (by simp) hn r
    simp_rw [this]
    exact Submodule.zero_mem _

theorem linSim_fgn {N : ℕ} {H sigma : ℝ} {dt : Option ℝ} (z0 : Option (CArr R)) (h0 : 0 ≤ H) (h1 : H ≤ 1) (hN : 2 ≤ N)
    (hdt : ∀ d, dt = some d → 0 ≤ d) : LinSim (2 * ((2 * N - 2) * R)) (fgn R N H sigma dt "cme" z0) := by
  have := linSim_cme (R := R) ((List.range N).map (fgnCov H sigma (effStep dt N))) (by simpa using hN)
  have heq : fgn R N H sigma dt "cme" z0 = gaussianCme ((List.range N).map (fgnCov H sigma (effStep dt N)))
      ((List.range N).map (fgnCov H sigma (effStep dt N))).length none := by
    funext g
    rw [fgn_cme_eq z0 h0 h1 (by omega) hdt g]
    simp
  rw [← heq] at this
  simpa using this

theorem linSim_chol {cov : List ℝ} (hne : cov ≠ []) (hA : (toeplitz cov).PosDef) :
    LinSim (cov.length * R) (gaussianChol (R := R) cov cov.length none) := by
  obtain ⟨U, -, hU⟩ := gaussianChol_ok (R := R) hne hA
  refine ⟨_, fun g => ⟨_, hU g, rfl, rfl⟩, ?_⟩
  intro n r
  by_cases hn : n < cov.length
  · have hget : ∀ g : Rng, ((List.ofFn fun (i : Fin cov.length) (r : Fin R) =>
        ∑ j : Fin cov.length, U i j * g ((j : ℕ) * R + r)).getD n fun _ => 0) r
        = ∑ j : Fin cov.length, U ⟨n, hn⟩ j * g ((j : ℕ) * R + r) := by
      intro g
      rw [List.getD_eq_getElem?_getD, List.getElem?_eq_getElem (by simpa using hn)]
      simp
    simp_rw [hget]
    exact LinOn.sum _ _ fun j _ => LinOn.const_mul _ (LinOn.eval (flat_pos_lt r j.isLt))
  · have : ∀ g : Rng, ((List.ofFn fun (i : Fin cov.length) (r : Fin R) =>
        ∑ j : Fin cov.length, U i j * g ((j : ℕ) * R + r)).getD n fun _ => 0) r = 0 :=
      fun g => getD_oob (N := cov.length) (by simp) hn r
    simp_rw [this]
    exact Submodule.zero_mem _

theorem linSim_fbm {A N : ℕ} {H sigma : ℝ} {dt : Option ℝ} {method : String} (z0 : Option (CArr R))
    (hf : LinSim A (fgn R N H sigma dt method z0)) (hlen : ∀ g s, fgn R N H sigma dt method z0 g = .ok s → s.x.length = N) :
    LinSim A (fbm R N H sigma dt method z0) := by
  obtain ⟨x, hx, hl⟩ := hf
  refine ⟨fun g => cumsum (x g), ?_, ?_⟩
  · intro g
    obtain ⟨s, hs, hsx, hr⟩ := hx g
    exact ⟨{ s with x := cumsum s.x }, by rw [fbm, hs], by show cumsum s.x = _; rw [hsx], hr⟩
  · intro n r
    have hlen : ∀ g, (x g).length = N := by
      intro g
      obtain ⟨s, hs, hsx, -⟩ := hx g
      rw [← hsx, hlen g s hs]
    by_cases hn : n < N
    · have : ∀ g, ((cumsum (x g)).getD n fun _ => 0) r = ∑ k ∈ Finset.range (n + 1), ((x g).getD k fun _ => 0) r :=
        fun g => cumsum_getD _ _ (by rw [hlen]; exact hn) r
      simp_rw [this]
      exact LinOn.sum _ _ fun k _ => hl k r
    · have : ∀ g : Rng, ((cumsum (x g)).getD n fun _ => 0) r = 0 :=
        fun g => getD_oob (N := N) (by rw [cumsum_length, hlen]) hn r
      simp_rw [this]
      exact Submodule.zero_mem _

theorem linSim_fbm_cme {N : ℕ} {H sigma : ℝ} {dt : Option ℝ} (z0 : Option (CArr R)) (h0 : 0 ≤ H) (h1 : H ≤ 1) (hN : 2 ≤ N)
    (hdt : ∀ d, dt = some d → 0 ≤ d) : LinSim (2 * ((2 * N - 2) * R)) (fbm R N H sigma dt "cme" z0) := by
  refine linSim_fbm z0 (linSim_fgn z0 h0 h1 hN hdt) fun g s hs => ?_
  rw [fgn_cme_eq z0 h0 h1 (by omega) hdt g] at hs
  have hc := gaussianCme_eq (R := R) ((List.range N).map (fgnCov H sigma (effStep dt N))) (by simpa using hN) g
  rw [show ((List.range N).map (fgnCov H sigma (effStep dt N))).length = N by simp] at hc
  rw [hc] at hs
  cases hs
  simp

/-- The realisations of a Gaussian array are independent. -/
theorem GaussianArray.independent {N : ℕ} {x : Ω → List (Fin R → ℝ)} {Γ : ℕ → ℕ → ℝ} (h : GaussianArray μ N x Γ) :
    iIndepFun (fun (r : Fin R) ω (n : Fin N) => sample x n r ω) μ := by
  have hp := h.gaussian.isProbabilityMeasure
  have h1 : HasGaussianLaw (fun ω (r : Fin R) (n : Fin N) => sample x n r ω) μ := by
    let L : (Fin N × Fin R → ℝ) →L[ℝ] (Fin R → Fin N → ℝ) := ContinuousLinearMap.pi fun r => ContinuousLinearMap.pi fun n =>
      ContinuousLinearMap.proj (R := ℝ) (φ := fun _ : Fin N × Fin R => ℝ) (n, r)
    exact h.gaussian.map_fun L
  refine HasGaussianLaw.iIndepFun_of_covariance_eval (X := fun r (n : Fin N) ω => sample x n r ω) h1 ?_
  intro r r' hr n m
  have hm : ∀ (n : Fin N) (r : Fin R), MemLp (fun ω => sample x n r ω) 2 μ := fun n r =>
    (h.gaussian.map_fun (ContinuousLinearMap.proj (R := ℝ) (φ := fun _ : Fin N × Fin R => ℝ) (n, r))).memLp_two
  rw [covariance_eq_sub (hm n r) (hm m r')]
  have := h.cov n n.isLt m m.isLt r r'
  rw [if_neg hr] at this
  have h0 := h.mean n n.isLt r
  simp only [Pi.mul_apply]
  rw [this, h0, zero_mul, sub_zero]

/-- **C85**: the samples of `gaussian_cme` are jointly Gaussian, for every autocovariance; without a warning they have exactly the
requested covariance, and the realisations are independent. -/
theorem C85_cme (cov : List ℝ) (h : 2 ≤ cov.length) (hR : R ≠ 0) (hg : StdNormal μ g)
    (hnw : NoWarning (gaussianCme (R := R) cov cov.length none)) :
    ∃ x : Ω → RArr R, Returns (gaussianCme cov cov.length none) g x ∧
      GaussianArray μ cov.length x (fun n m => cov.getD (Int.natAbs ((n : ℤ) - m)) 0) ∧
      iIndepFun (fun (r : Fin R) ω (n : Fin cov.length) => sample x n r ω) μ := by
  obtain ⟨x, hx, hc⟩ := C70_exact_iff_no_warning (R := R) cov h hg.whiteNoise hR
  have hG : GaussianArray μ cov.length x (fun n m => cov.getD (Int.natAbs ((n : ℤ) - m)) 0) :=
    ⟨hc.2 hnw, (linSim_cme cov h).gaussian hg hx fun p : Fin cov.length × Fin R => (p.1, p.2)⟩
  exact ⟨x, hx, hG, hG.independent⟩

/-- **C85** for `gaussian_chol`: also jointly Gaussian with independent realisations (the covariance is `U Uᵀ`, not the requested
one: C71). -/
theorem C85_chol (cov : List ℝ) (hne : cov ≠ []) (hA : (toeplitz cov).PosDef) (hg : StdNormal μ g) :
    ∃ U, IsUpperCholesky U (toeplitz cov) ∧ ∃ x : Ω → RArr R, Returns (gaussianChol cov cov.length none) g x ∧
      GaussianArray μ cov.length x (entries (U * U.transpose)) ∧
      iIndepFun (fun (r : Fin R) ω (n : Fin cov.length) => sample x n r ω) μ := by
  obtain ⟨U, hU, x, hx, hc⟩ := C71_covariance (R := R) cov hne hA hg.whiteNoise
  have hG : GaussianArray μ cov.length x (entries (U * U.transpose)) :=
    ⟨hc, (linSim_chol hne hA).gaussian hg hx fun p : Fin cov.length × Fin R => (p.1, p.2)⟩
  exact ⟨U, hU, x, hx, hG, hG.independent⟩

/-- **C85** for `fgn`: from standard normal draws, the samples are jointly Gaussian with mean zero and the covariance of the
increments of fractional Brownian motion, and the realisations are independent: the law of the array is exactly that of `R`
independent fractional Gaussian noises. -/
theorem C85_fgn {N : ℕ} {H sigma : ℝ} {dt : Option ℝ} (z0 : Option (CArr R)) (h0 : 0 < H) (h1 : H ≤ 1) (hN : 2 ≤ N)
    (hdt : ∀ d, dt = some d → 0 ≤ d) (hR : R ≠ 0) (hg : StdNormal μ g) :
    ∃ x : Ω → RArr R, Returns (fgn R N H sigma dt "cme" z0) g x ∧
      GaussianArray μ N x (fun n m => fgnCovariance H sigma (effStep dt N) (n * effStep dt N) (m * effStep dt N)) ∧
      iIndepFun (fun (r : Fin R) ω (n : Fin N) => sample x n r ω) μ := by
  obtain ⟨x, hx, hc⟩ := C72_fgn (R := R) (sigma := sigma) z0 h0 h1 hN hdt hR hg.whiteNoise
  have hG : GaussianArray μ N x _ := ⟨hc, (linSim_fgn z0 h0.le h1 hN hdt).gaussian hg hx fun p : Fin N × Fin R => (p.1, p.2)⟩
  exact ⟨x, hx, hG, hG.independent⟩

/-- **C85** for `fbm`: the law of the array is exactly that of `R` independent fractional Brownian motions at the times
`dt, 2 dt, ..., N dt`. -/
theorem C85_fbm {N : ℕ} {H sigma : ℝ} {dt : Option ℝ} (z0 : Option (CArr R)) (h0 : 0 < H) (h1 : H ≤ 1) (hN : 2 ≤ N)
    (hdt : ∀ d, dt = some d → 0 ≤ d) (hR : R ≠ 0) (hg : StdNormal μ g) :
    ∃ x : Ω → RArr R, Returns (fbm R N H sigma dt "cme" z0) g x ∧
      GaussianArray μ N x
        (fun n m => fbmCovariance H sigma ((n + 1 : ℕ) * effStep dt N) ((m + 1 : ℕ) * effStep dt N)) ∧
      iIndepFun (fun (r : Fin R) ω (n : Fin N) => sample x n r ω) μ := by
  obtain ⟨-, x, hx, hc⟩ := C72_fbm (R := R) (sigma := sigma) z0 h0 h1 hN hdt hR hg.whiteNoise
  have hG : GaussianArray μ N x _ := ⟨hc, (linSim_fbm_cme z0 h0.le h1 hN hdt).gaussian hg hx fun p : Fin N × Fin R => (p.1, p.2)⟩
  exact ⟨x, hx, hG, hG.independent⟩

/-- **C85**: mean, covariance and Gaussianity determine the law: two simulations (of any two generators) that are Gaussian arrays with
the same covariance have the same distribution. -/
theorem C85_law {Ω' : Type*} [MeasurableSpace Ω'] {ν : Measure Ω'} {N : ℕ} {x : Ω → List (Fin R → ℝ)} {y : Ω' → List (Fin R → ℝ)}
    {Γ : ℕ → ℕ → ℝ} (hx : GaussianArray μ N x Γ) (hy : GaussianArray ν N y Γ) :
    μ.map (fun ω (p : Fin N × Fin R) => sample x p.1 p.2 ω) = ν.map (fun ω (p : Fin N × Fin R) => sample y p.1 p.2 ω) := by
  refine law_eq_of_cov hx.gaussian hy.gaussian (fun p => hx.mean p.1 p.1.isLt p.2) (fun p => hy.mean p.1 p.1.isLt p.2) ?_
  intro p q
  rw [hx.cov p.1 p.1.isLt q.1 q.1.isLt p.2 q.2, hy.cov p.1 p.1.isLt q.1 q.1.isLt p.2 q.2]

/-- **C85**, stationarity: the noise returned by `fgn`, shifted by `s` samples, has the same law as the unshifted noise. -/
theorem C85_stationary {N : ℕ} {H sigma : ℝ} {dt : Option ℝ} (z0 : Option (CArr R)) (h0 : 0 ≤ H) (h1 : H ≤ 1) (hN : 2 ≤ N)
    (hdt : ∀ d, dt = some d → 0 ≤ d) (hR : R ≠ 0) (hg : StdNormal μ g) :
    ∃ x : Ω → RArr R, Returns (fgn R N H sigma dt "cme" z0) g x ∧ ∀ n s, n + s ≤ N →
      μ.map (fun ω (p : Fin n × Fin R) => sample x (p.1 + s) p.2 ω) = μ.map (fun ω (p : Fin n × Fin R) => sample x p.1 p.2 ω) := by
  obtain ⟨-, x, hx, hc⟩ := C70_fgn (R := R) (sigma := sigma) z0 h0 h1 hN hdt hR hg.whiteNoise
  refine ⟨x, hx, fun n s hns => ?_⟩
  have hl := linSim_fgn (R := R) (sigma := sigma) z0 h0 h1 hN hdt
  refine law_eq_of_cov (hl.gaussian hg hx fun p : Fin n × Fin R => (p.1 + s, p.2)) (hl.gaussian hg hx fun p : Fin n × Fin R => (p.1, p.2))
    (fun p => hc.mean _ (by have := p.1.isLt; omega) p.2) (fun p => hc.mean _ (by have := p.1.isLt; omega) p.2) ?_
  intro p q
  have := p.1.isLt
  have := q.1.isLt
  rw [hc.cov (p.1 + s) (by omega) (q.1 + s) (by omega) p.2 q.2, hc.cov p.1 (by omega) q.1 (by omega) p.2 q.2]
  congr 3
  push_cast
  omega

/-- **C85**, self-similarity: every `m`-th sample of the motion returned by `fbm` has the same joint law as the first samples
multiplied by `m^H`. -/
theorem C85_self_similar {N : ℕ} {H sigma : ℝ} {dt : Option ℝ} (z0 : Option (CArr R)) (h0 : 0 < H) (h1 : H ≤ 1) (hN : 2 ≤ N)
    (hdt : ∀ d, dt = some d → 0 ≤ d) (hR : R ≠ 0) (hg : StdNormal μ g) :
    ∃ x : Ω → RArr R, Returns (fbm R N H sigma dt "cme" z0) g x ∧ ∀ n m, 1 ≤ m → n * m ≤ N →
      μ.map (fun ω (p : Fin n × Fin R) => sample x ((p.1 + 1) * m - 1) p.2 ω) =
        μ.map (fun ω (p : Fin n × Fin R) => (m : ℝ) ^ H * sample x p.1 p.2 ω) := by
  obtain ⟨-, x, hx, hc⟩ := C72_fbm (R := R) (sigma := sigma) z0 h0 h1 hN hdt hR hg.whiteNoise
  refine ⟨x, hx, fun n m hm hnm => ?_⟩
  have hl := linSim_fbm_cme (R := R) (sigma := sigma) z0 h0.le h1 hN hdt
  have hpos := (fgnDt_eq (N := N) (by omega) hdt).2
  have hlt : ∀ p : Fin n × Fin R, ((p.1 : ℕ) + 1) * m ≤ N ∧ (p.1 : ℕ) < N := by
    intro p
    have h2 : ((p.1 : ℕ) + 1) * m ≤ n * m := Nat.mul_le_mul_right _ p.1.isLt
    refine ⟨by omega, ?_⟩
    have : (p.1 : ℕ) + 1 ≤ (p.1 + 1) * m := Nat.le_mul_of_pos_right _ hm
    omega
  have hG : HasGaussianLaw (fun ω (p : Fin n × Fin R) => (m : ℝ) ^ H * sample x p.1 p.2 ω) μ :=
    (hl.gaussian hg hx fun p : Fin n × Fin R => ((p.1 : ℕ), p.2)).smul ((m : ℝ) ^ H)
  refine law_eq_of_cov (hl.gaussian hg hx fun p : Fin n × Fin R => ((p.1 + 1) * m - 1, p.2)) hG
    (fun p => hc.mean _ (by have := (hlt p).1; have : 0 < ((p.1 : ℕ) + 1) * m := by positivity
                            omega) p.2)
    (fun p => by rw [integral_const_mul, hc.mean _ (hlt p).2 p.2, mul_zero]) ?_
  intro p q
  have hp1 : 0 < ((p.1 : ℕ) + 1) * m := by positivity
  have hq1 : 0 < ((q.1 : ℕ) + 1) * m := by positivity
  have h2 : ∀ ω, (m : ℝ) ^ H * sample x p.1 p.2 ω * ((m : ℝ) ^ H * sample x q.1 q.2 ω) =
      (m : ℝ) ^ (2 * H) * (sample x p.1 p.2 ω * sample x q.1 q.2 ω) := by
    intro ω
    have hm0 : (0 : ℝ) < m := by exact_mod_cast hm
    rw [show 2 * H = H + H by ring, Real.rpow_add hm0]
    ring
  simp_rw [h2]
  rw [integral_const_mul, hc.cov _ (by have := (hlt p).1; omega) _ (by have := (hlt q).1; omega) p.2 q.2,
    hc.cov p.1 (hlt p).2 q.1 (hlt q).2 p.2 q.2]
  by_cases hr : p.2 = q.2
  · rw [if_pos hr, if_pos hr, show ((p.1 : ℕ) + 1) * m - 1 + 1 = (p.1 + 1) * m by omega,
      show ((q.1 : ℕ) + 1) * m - 1 + 1 = (q.1 + 1) * m by omega]
    unfold fbmCovariance
    have hm0 : (0 : ℝ) ≤ m := Nat.cast_nonneg m
    have hs : ∀ t : ℝ, |m * t| ^ (2 * H) = (m : ℝ) ^ (2 * H) * |t| ^ (2 * H) := by
      intro t
      rw [abs_mul, abs_of_nonneg hm0, Real.mul_rpow hm0 (abs_nonneg _)]
    have e : ∀ k : ℕ, (((k + 1) * m : ℕ) : ℝ) * effStep dt N = m * (((k + 1 : ℕ) : ℝ) * effStep dt N) := by
      intro k; push_cast; ring
    rw [e, e, ← mul_sub, hs, hs, hs]
    ring
  · rw [if_neg hr, if_neg hr, mul_zero]

/-- **C85**, `H = 1/2`: the samples returned by `fgn` are independent and normal with variance `sigma^2 dt`: `fbm` is a Brownian
motion. -/
theorem C85_brownian {N : ℕ} {sigma : ℝ} {dt : Option ℝ} (z0 : Option (CArr R)) (hN : 2 ≤ N)
    (hdt : ∀ d, dt = some d → 0 ≤ d) (hR : R ≠ 0) (hg : StdNormal μ g) :
    ∃ x : Ω → RArr R, Returns (fgn R N (1 / 2) sigma dt "cme" z0) g x ∧
      iIndepFun (fun (p : Fin N × Fin R) ω => sample x p.1 p.2 ω) μ ∧
      ∀ n < N, ∀ r, HasLaw (sample x n r) (gaussianReal 0 (sigma ^ 2 * effStep dt N).toNNReal) μ := by
  obtain ⟨x, hx, hc⟩ := C72_brownian (R := R) (sigma := sigma) z0 hN hdt hR hg.whiteNoise
  have hp := hg.isProbabilityMeasure
  have hl := linSim_fgn (R := R) (sigma := sigma) (N := N) (dt := dt) z0 (by norm_num : (0:ℝ) ≤ 1 / 2) (by norm_num) hN hdt
  have hG := hl.gaussian hg hx fun p : Fin N × Fin R => ((p.1 : ℕ), p.2)
  have hm : ∀ (n : Fin N) (r : Fin R), HasGaussianLaw (fun ω => sample x n r ω) μ := fun n r =>
    hG.map_fun (ContinuousLinearMap.proj (R := ℝ) (φ := fun _ : Fin N × Fin R => ℝ) (n, r))
  refine ⟨x, hx, HasGaussianLaw.iIndepFun_of_covariance_eq_zero (X := fun (p : Fin N × Fin R) ω => sample x p.1 p.2 ω) hG ?_, ?_⟩
  · intro p q hpq
    rw [covariance_eq_sub (hm p.1 p.2).memLp_two (hm q.1 q.2).memLp_two]
    have h := hc.cov p.1 p.1.isLt q.1 q.1.isLt p.2 q.2
    have h0 := hc.mean p.1 p.1.isLt p.2
    simp only [Pi.mul_apply]
    rw [h, h0, zero_mul, sub_zero]
    by_cases hr : p.2 = q.2
    · rw [if_pos hr, if_neg fun he => hpq (Prod.ext (Fin.ext he) hr)]
    · rw [if_neg hr]
  · intro n hn r
    have h := hm ⟨n, hn⟩ r
    refine ⟨h.aemeasurable, ?_⟩
    have e := h.map_eq_gaussianReal
    have h0 : ∫ ω, sample x n r ω ∂μ = 0 := hc.mean n hn r
    have hv : Var[fun ω => sample x n r ω; μ] = sigma ^ 2 * effStep dt N := by
      rw [variance_eq_sub h.memLp_two]
      have := hc.cov n hn n hn r r
      rw [if_pos rfl, if_pos rfl] at this
      simp only [Pi.pow_apply, sq]
      rw [h0, mul_zero, sub_zero, this, sq]
    simp only at e
    rw [h0, hv] at e
    exact e

/-- C85 on a concrete call: 3 realisations of 1000 samples, `H = 0.8`. -/
example : ∃ (Ω : Type) (_ : MeasurableSpace Ω) (μ : Measure Ω) (g : Ω → ℕ → ℝ) (x : Ω → RArr 3), StdNormal μ g ∧
    Returns (fbm 3 1000 (4 / 5) 1 none "cme" none) g x ∧
    GaussianArray μ 1000 x (fun n m => fbmCovariance (4 / 5) 1 ((n + 1 : ℕ) * (1 / (1000 : ℕ))) ((m + 1 : ℕ) * (1 / (1000 : ℕ)))) := by
  obtain ⟨Ω, m, μ, g, h⟩ := exists_stdNormal
  obtain ⟨x, hx, hG, -⟩ := C85_fbm (R := 3) (N := 1000) (H := 4 / 5) (sigma := 1) (dt := none) none (by norm_num) (by norm_num)
    (by norm_num) (by simp) (by norm_num) h
  rw [show effStep none 1000 = 1 / ((1000 : ℕ) : ℝ) by rw [effStep, if_pos (Or.inl rfl)]] at hG
  exact ⟨Ω, m, μ, g, x, h, hx, hG⟩

end

end MFA
