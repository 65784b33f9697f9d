import Verif.Props.SimulGauss
import Verif.Props.SimulArgs
import Verif.Spec.Mrw

/-!
# C86: the law and the moments of the multifractal random walk
-/

namespace MFA

open MeasureTheory ProbabilityTheory Finset

noncomputable section

variable {R : ℕ} {Ω : Type*} [MeasurableSpace Ω] {μ : Measure Ω} {g : Ω → ℕ → ℝ}

theorem linSim_w {N : ℕ} {L lam : ℝ} (hL : 0 < L) (hLN : L ≤ N) (hN : 2 ≤ N) :
    LinSim (2 * ((2 * N - 2) * R)) (gaussianW R N L lam 1 "cme" none) := by
  have := linSim_cme (R := R) ((List.range N).map (wCov L lam 1)) (by simpa using hN)
  have heq : gaussianW R N L lam 1 "cme" none = gaussianCme ((List.range N).map (wCov L lam 1))
      ((List.range N).map (wCov L lam 1)).length none := by
    funext g
    rw [gaussianW_cme_eq (R := R) hL one_pos (by simpa using hLN) none g]
    simp
  rw [← heq] at this
  simpa using this

/-- **C86**.  From standard normal draws, `mrw` (default method) returns exactly the multifractal random walk: its increments are a
fractional Gaussian noise times the exponential of an independent, logarithmically correlated Gaussian process, centred over time
and shifted by `-lam^2/2 log L`. -/
theorem C86_law {N : ℕ} {H lam L sigma : ℝ} (h0 : 0 < H) (h1 : H ≤ 1) (hL : 0 < L) (hLN : L ≤ N) (hN : 2 ≤ N) (hR : R ≠ 0)
    (hg : StdNormal μ g) :
    NoWarning (mrw R N H lam L sigma "cme" (none, none)) ∧
    ∃ x e w : Ω → RArr R, Returns (mrw R N H lam L sigma "cme" (none, none)) g x ∧ MrwLaw μ N H lam L sigma x e w := by
  constructor
  · intro g s hs
    obtain ⟨s', _, _, _, hs', hw, _⟩ := C75_mrw (R := R) (lam := lam) (sigma := sigma) h0.le h1 hL hLN hN g
    rw [hs] at hs'
    cases hs'
    exact hw
  have hlw := linSim_w (R := R) (lam := lam) hL hLN hN
  have hle := linSim_fgn (R := R) (sigma := sigma) (dt := none) none h0.le h1 hN (by simp)
  set A := 2 * ((2 * N - 2) * R) with hA
  have hg' : StdNormal μ (fun ω => Rng.skip (g ω) A) := hg.skip A
  obtain ⟨-, w, hw, hwc⟩ := C75_log_covariance (R := R) (lam := lam) hL one_pos (by simpa using hLN) hN hR hg.whiteNoise
  obtain ⟨e, he, hec⟩ := C72_fgn (R := R) (sigma := sigma) (dt := none) none h0 h1 hN (by simp) hR hg'.whiteNoise
  have hstep : effStep none N = 1 / (N : ℝ) := by rw [effStep, if_pos (Or.inl rfl)]
  rw [hstep] at hec
  simp only [div_one] at hwc
  have hmrw := fun ω => C75_mrw (R := R) (lam := lam) (sigma := sigma) h0.le h1 hL hLN hN (g ω)
  choose s ws es w' hs _ _ hws hes _ hc hmean hfst hnext using hmrw
  have hwx : ∀ ω, (ws ω).x = w ω ∧ (ws ω).rng = Rng.skip (g ω) A := by
    intro ω
    obtain ⟨y, hy, -⟩ := hlw
    obtain ⟨t, ht, htx, htr⟩ := hy (g ω)
    obtain ⟨u, hu, hux⟩ := hw ω
    have h2 := hws ω
    rw [hu] at h2 ht
    cases h2
    cases ht
    exact ⟨hux, htr⟩
  have hex : ∀ ω, (es ω).x = e ω := by
    intro ω
    obtain ⟨u, hu, hux⟩ := he ω
    have h2 := hes ω
    rw [(hwx ω).2, hu] at h2
    cases h2
    exact hux
  have hw'eq : ∀ ω n, n < N → ∀ r, ((w' ω).getD n fun _ => 0) r =
      sample w n r ω - (∑ k ∈ range N, sample w k r ω) / N - lam ^ 2 / 2 * Real.log L := by
    intro ω n hn r
    obtain ⟨c, hc⟩ := hc ω r
    have hm := hmean ω r
    rw [sum_congr rfl fun k hk => hc k (mem_range.1 hk), sum_sub_distrib, sum_const, card_range, nsmul_eq_mul] at hm
    have hN0 : (N : ℝ) ≠ 0 := by exact_mod_cast (by omega : N ≠ 0)
    rw [hc n hn, (hwx ω).1]
    rw [(hwx ω).1] at hm
    have : c = (∑ k ∈ range N, sample w k r ω) / N + lam ^ 2 / 2 * Real.log L := by
      field_simp at hm ⊢
      linarith
    rw [this]
    simp only [sample]
    ring
  refine ⟨fun ω => (s ω).x, e, w, fun ω => ⟨s ω, hs ω, rfl⟩, ⟨hec, ?_⟩, ⟨hwc, ?_⟩, ?_, ?_⟩
  · exact hle.gaussian hg' he fun p : Fin N × Fin R => (p.1, p.2)
  · exact hlw.gaussian hg hw fun p : Fin N × Fin R => (p.1, p.2)
  · obtain ⟨y, hy, hyl⟩ := hlw
    obtain ⟨z, hz, hzl⟩ := hle
    have hwy : w = fun ω => y (g ω) := hw.unique fun ω => by
      obtain ⟨t, ht, htx, -⟩ := hy (g ω); exact ⟨t, ht, htx⟩
    have hez : e = fun ω => z (Rng.skip (g ω) A) := he.unique fun ω => by
      obtain ⟨t, ht, htx, -⟩ := hz (Rng.skip (g ω) A); exact ⟨t, ht, htx⟩
    subst hwy hez
    exact hg.independent (S := {i | A ≤ i}) (T := {i | i < A})
      (Set.disjoint_left.2 fun i (h : A ≤ i) (h' : i < A) => absurd h' (not_lt.2 h))
      (fun (p : Fin N × Fin R) (g : Rng) => ((z (Rng.skip g A)).getD p.1 fun _ => 0) p.2)
      (fun (p : Fin N × Fin R) (g : Rng) => ((y g).getD p.1 fun _ => 0) p.2)
      (fun p => Lin.skip A (LinOn.lin (hzl p.1 p.2))) (fun p => hyl p.1 p.2)
  · intro n hn r ω
    rw [← hw'eq ω n hn r]
    unfold increment
    simp only [sample]
    rw [← hex ω]
    rcases n with _ | n
    · rw [if_pos rfl, sub_zero]; exact hfst ω r
    · rw [if_neg (by omega)]; exact hnext ω n hn r

/-! ### Exponential moments of linear combinations -/

theorem exp_lin {ι : Type*} [Fintype ι] {X : Ω → ι → ℝ} (hX : HasGaussianLaw X μ) (hm : ∀ i, ∫ ω, X ω i ∂μ = 0) (a : ι → ℝ) :
    Integrable (fun ω => Real.exp (∑ i, a i * X ω i)) μ ∧
    ∫ ω, Real.exp (∑ i, a i * X ω i) ∂μ = Real.exp ((∑ i, ∑ j, a i * a j * ∫ ω, X ω i * X ω j ∂μ) / 2) := by
  classical
  have hp := hX.isProbabilityMeasure
  let L : (ι → ℝ) →L[ℝ] ℝ := ∑ i, a i • ContinuousLinearMap.proj (R := ℝ) (φ := fun _ : ι => ℝ) i
  have hL : ∀ x : ι → ℝ, L x = ∑ i, a i * x i := by intro x; simp [L]
  have hs : ∀ i, L (Pi.single i 1) = a i := by
    intro i
    rw [hL, sum_eq_single i]
    · simp
    · intro j _ hj; simp [hj]
    · simp
  obtain ⟨h1, h2⟩ := dual_moments hX hm L
  simp only [hs] at h2
  have hG := hX.map_fun L
  have e := hG.map_eq_gaussianReal
  have hmgf := mgf_gaussianReal e 1
  have hv : 0 ≤ Var[fun ω => L (X ω); μ] := variance_nonneg _ _
  have hint : ∫ ω, Real.exp (∑ i, a i * X ω i) ∂μ = Real.exp ((∑ i, ∑ j, a i * a j * ∫ ω, X ω i * X ω j ∂μ) / 2) := by
    rw [h2] at hv
    simp only [mgf, one_mul, h1, mul_one, zero_add, one_pow, h2, Real.coe_toNNReal _ hv] at hmgf
    rw [← hmgf]
    simp_rw [hL]
  refine ⟨?_, hint⟩
  by_contra hn
  rw [integral_undef hn] at hint
  exact (Real.exp_pos _).ne hint

/-- Exponential moments of linear combinations of the samples of two realisations of a Gaussian array. -/
theorem GaussianArray.exp_lin {N : ℕ} {w : Ω → List (Fin R → ℝ)} {Γ : ℕ → ℕ → ℝ} (hw : GaussianArray μ N w Γ) (r r' : Fin R)
    (a b : ℕ → ℝ) :
    Integrable (fun ω => Real.exp (∑ k ∈ range N, a k * sample w k r ω + ∑ k ∈ range N, b k * sample w k r' ω)) μ ∧
    (r = r' → ∫ ω, Real.exp (∑ k ∈ range N, a k * sample w k r ω + ∑ k ∈ range N, b k * sample w k r' ω) ∂μ
      = Real.exp ((∑ i ∈ range N, ∑ j ∈ range N, (a i + b i) * (a j + b j) * Γ i j) / 2)) := by
  have h := MFA.exp_lin hw.gaussian (fun p => hw.mean p.1 p.1.isLt p.2)
    (fun p : Fin N × Fin R => (if p.2 = r then a p.1 else 0) + if p.2 = r' then b p.1 else 0)
  have hlin : ∀ ω, ∑ p : Fin N × Fin R, ((if p.2 = r then a p.1 else 0) + if p.2 = r' then b p.1 else 0) * sample w p.1 p.2 ω
      = ∑ k ∈ range N, a k * sample w k r ω + ∑ k ∈ range N, b k * sample w k r' ω := by
    intro ω
    rw [Fintype.sum_prod_type, ← Fin.sum_univ_eq_sum_range (fun k => a k * sample w k r ω),
      ← Fin.sum_univ_eq_sum_range (fun k => b k * sample w k r' ω), ← sum_add_distrib]
    refine sum_congr rfl fun i _ => ?_
    simp only [add_mul, ite_mul, zero_mul, sum_add_distrib, sum_ite_eq', mem_univ, if_true]
  simp_rw [hlin] at h
  refine ⟨h.1, ?_⟩
  rintro rfl
  rw [h.2]
  congr 2
  have hcov : ∀ p q : Fin N × Fin R, ∫ ω, sample w p.1 p.2 ω * sample w q.1 q.2 ω ∂μ = if p.2 = q.2 then Γ p.1 q.1 else 0 :=
    fun p q => hw.cov p.1 p.1.isLt q.1 q.1.isLt p.2 q.2
  simp_rw [hcov]
  rw [Fintype.sum_prod_type, ← Fin.sum_univ_eq_sum_range (fun i => ∑ j ∈ range N, (a i + b i) * (a j + b j) * Γ i j)]
  refine sum_congr rfl fun i _ => ?_
  rw [sum_eq_single r]
  · rw [Fintype.sum_prod_type, ← Fin.sum_univ_eq_sum_range (fun j => (a i + b i) * (a j + b j) * Γ i j)]
    refine sum_congr rfl fun j _ => ?_
    rw [sum_eq_single r]
    · simp
    · intro s _ hs; simp [hs]
    · simp
  · intro s _ hs
    refine sum_eq_zero fun q _ => ?_
    simp [hs]
  · simp

/-- Coefficients of `w_n - mean(w)`. -/
def dev (N n k : ℕ) : ℝ := (if k = n then 1 else 0) - 1 / N

theorem sum_dev {N n : ℕ} (hn : n < N) (f : ℕ → ℝ) : ∑ k ∈ range N, dev N n k * f k = f n - (∑ k ∈ range N, f k) / N := by
  simp only [dev, sub_mul, sum_sub_distrib, ite_mul, one_mul, zero_mul]
  rw [sum_ite_eq' (range N) n, if_pos (mem_range.2 hn), ← mul_sum]
  ring

theorem sum_dev_dev {N n m : ℕ} (hn : n < N) (hm : m < N) (Γ : ℕ → ℕ → ℝ) :
    ∑ i ∈ range N, ∑ j ∈ range N, dev N n i * dev N m j * Γ i j = centredCovariance Γ N n m := by
  have h1 : ∀ i, ∑ j ∈ range N, dev N n i * dev N m j * Γ i j = dev N n i * (Γ i m - (∑ j ∈ range N, Γ i j) / N) := by
    intro i
    rw [← sum_dev hm, mul_sum]
    exact sum_congr rfl fun j _ => by ring
  simp_rw [h1]
  rw [sum_dev hn, sum_sub_distrib, ← sum_div, centredCovariance]
  field_simp
  ring

theorem centred_symm {Γ : ℕ → ℕ → ℝ} (h : ∀ n m, Γ n m = Γ m n) (N n m : ℕ) : centredCovariance Γ N n m = centredCovariance Γ N m n := by
  unfold centredCovariance
  rw [h n m, sum_congr rfl fun j _ => h n j, sum_congr rfl fun i _ => h i m]
  ring

theorem mrwCovariance_symm (lam L : ℝ) (n m : ℕ) : mrwCovariance lam L n m = mrwCovariance lam L m n := by
  unfold mrwCovariance
  congr 1
  omega

variable {N : ℕ} {H lam L sigma : ℝ} {x e w : Ω → RArr R}

theorem MrwLaw.indep_pair (h : MrwLaw μ N H lam L sigma x e w) {f f' : (Fin N × Fin R → ℝ) → ℝ} (hf : Measurable f) (hf' : Measurable f') :
    IndepFun (fun ω => f fun p => sample e p.1 p.2 ω) (fun ω => f' fun p => sample w p.1 p.2 ω) μ :=
  h.independent.comp hf hf'

/-- **C86**, second order: the increments of the walk are centred; increments of different realisations are uncorrelated; within a
realisation their covariance is that of the fractional Gaussian noise times
`exp((K(n,n) + 2 K(n,m) + K(m,m))/2 - lam^2 log L)`, `K` being the covariance of the centred log-volatility. -/
theorem C86_covariance (h : MrwLaw μ N H lam L sigma x e w) {n m : ℕ} (hn : n < N) (hm : m < N) (r r' : Fin R) :
    Integrable (increment x n r) μ ∧ ∫ ω, increment x n r ω ∂μ = 0 ∧
    Integrable (fun ω => increment x n r ω * increment x m r' ω) μ ∧
    ∫ ω, increment x n r ω * increment x m r' ω ∂μ = if r = r' then
      fgnCovariance H sigma (1 / N) (n * (1 / N)) (m * (1 / N)) *
        Real.exp ((centredCovariance (mrwCovariance lam L) N n n + 2 * centredCovariance (mrwCovariance lam L) N n m
          + centredCovariance (mrwCovariance lam L) N m m) / 2 - lam ^ 2 * Real.log L) else 0 := by
  have key := h.volatility.exp_lin r r' (dev N n) (dev N m)
  have key1 := h.volatility.exp_lin r r (dev N n) 0
  have hd : ∀ n (_ : n < N) r ω, sample w n r ω - (∑ k ∈ range N, sample w k r ω) / N = ∑ k ∈ range N, dev N n k * sample w k r ω :=
    fun n hn r ω => (sum_dev hn fun k => sample w k r ω).symm
  have hx1 : increment x n r = fun ω => Real.exp (-(lam ^ 2 / 2 * Real.log L)) * (sample e n r ω *
      Real.exp (∑ k ∈ range N, dev N n k * sample w k r ω)) := by
    funext ω
    rw [h.walk n hn r ω, hd n hn, sub_eq_add_neg _ (lam ^ 2 / 2 * Real.log L), Real.exp_add]
    ring
  have hx2 : (fun ω => increment x n r ω * increment x m r' ω) = fun ω => Real.exp (-(lam ^ 2 * Real.log L)) *
      ((sample e n r ω * sample e m r' ω) *
      Real.exp (∑ k ∈ range N, dev N n k * sample w k r ω + ∑ k ∈ range N, dev N m k * sample w k r' ω)) := by
    funext ω
    rw [h.walk n hn r ω, h.walk m hm r' ω, hd n hn, hd m hm, sub_eq_add_neg _ (lam ^ 2 / 2 * Real.log L),
      sub_eq_add_neg _ (lam ^ 2 / 2 * Real.log L), Real.exp_add, Real.exp_add, Real.exp_add,
      show -(lam ^ 2 * Real.log L) = -(lam ^ 2 / 2 * Real.log L) + -(lam ^ 2 / 2 * Real.log L) by ring, Real.exp_add]
    ring
  have hsum : ∀ (f : ℕ → ℝ) (r : Fin R) (ω : Ω), ∑ k ∈ range N, f k * sample w k r ω = ∑ k : Fin N, f k * sample w k r ω :=
    fun f r ω => (Fin.sum_univ_eq_sum_range (fun k => f k * sample w k r ω) N).symm
  have hi1 : IndepFun (fun ω => sample e n r ω) (fun ω => Real.exp (∑ k ∈ range N, dev N n k * sample w k r ω)) μ := by
    simp_rw [hsum]
    exact h.indep_pair (f := fun v => v (⟨n, hn⟩, r)) (f' := fun v => Real.exp (∑ k : Fin N, dev N n k * v (k, r)))
      (by fun_prop) (by fun_prop)
  have hi2 : IndepFun (fun ω => sample e n r ω * sample e m r' ω)
      (fun ω => Real.exp (∑ k ∈ range N, dev N n k * sample w k r ω + ∑ k ∈ range N, dev N m k * sample w k r' ω)) μ := by
    simp_rw [hsum]
    exact h.indep_pair (f := fun v => v (⟨n, hn⟩, r) * v (⟨m, hm⟩, r'))
      (f' := fun v => Real.exp (∑ k : Fin N, dev N n k * v (k, r) + ∑ k : Fin N, dev N m k * v (k, r')))
      (by fun_prop) (by fun_prop)
  have k1 : Integrable (fun ω => Real.exp (∑ k ∈ range N, dev N n k * sample w k r ω)) μ := by
    have := key1.1
    simpa using this
  refine ⟨?_, ?_, ?_, ?_⟩
  · rw [hx1]
    exact (hi1.integrable_mul (h.noise.integrable1 n hn r) k1).const_mul _
  · rw [hx1, integral_const_mul, hi1.integral_fun_mul_eq_mul_integral (h.noise.integrable1 n hn r).1 k1.1]
    have := h.noise.mean n hn r
    simp only [sample]
    rw [this, zero_mul, mul_zero]
  · rw [hx2]
    exact (hi2.integrable_mul (h.noise.integrable n hn m hm r r') key.1).const_mul _
  · rw [hx2, integral_const_mul, hi2.integral_fun_mul_eq_mul_integral (h.noise.integrable n hn m hm r r').1 key.1.1]
    have hc := h.noise.cov n hn m hm r r'
    by_cases hr : r = r'
    · rw [if_pos hr] at hc ⊢
      rw [key.2 hr]
      have h3 : ∑ i ∈ range N, ∑ j ∈ range N, (dev N n i + dev N m i) * (dev N n j + dev N m j) * mrwCovariance lam L i j
          = centredCovariance (mrwCovariance lam L) N n n + 2 * centredCovariance (mrwCovariance lam L) N n m
            + centredCovariance (mrwCovariance lam L) N m m := by
        have e1 : 2 * centredCovariance (mrwCovariance lam L) N n m = centredCovariance (mrwCovariance lam L) N n m
            + centredCovariance (mrwCovariance lam L) N m n := by
          rw [centred_symm (mrwCovariance_symm lam L) N m n]; ring
        rw [e1, ← sum_dev_dev hn hn, ← sum_dev_dev hn hm, ← sum_dev_dev hm hn, ← sum_dev_dev hm hm]
        simp only [← sum_add_distrib]
        exact sum_congr rfl fun i _ => sum_congr rfl fun j _ => by ring
      rw [h3]
      simp only [sample]
      rw [hc, sub_eq_add_neg _ (lam ^ 2 * Real.log L), Real.exp_add]
      ring
    · rw [if_neg hr] at hc ⊢
      simp only [sample]
      rw [hc, zero_mul, mul_zero]

theorem gaussian_fourth (v : NNReal) : ∫ y, y ^ 4 ∂gaussianReal 0 v = 3 * (v : ℝ) ^ 2 := by
  have h := iteratedDeriv_mgf_zero (X := id) (μ := gaussianReal 0 v) (by simp) 4
  have hm : mgf id (gaussianReal 0 v) = fun t => Real.exp ((v : ℝ) * t ^ 2 / 2) := by
    funext t
    rw [mgf_gaussianReal (by simp : (gaussianReal 0 v).map id = gaussianReal 0 v)]
    simp
  rw [hm] at h
  have hd : ∀ (p p' : ℝ → ℝ), (∀ t, HasDerivAt p (p' t) t) →
      deriv (fun t => p t * Real.exp ((v : ℝ) * t ^ 2 / 2)) = fun t => (p' t + p t * (v * t)) * Real.exp ((v : ℝ) * t ^ 2 / 2) := by
    intro p p' hp
    funext t
    have h1 : HasDerivAt (fun t : ℝ => (v : ℝ) * t ^ 2 / 2) (v * t) t := by
      have := ((hasDerivAt_pow 2 t).const_mul (v : ℝ)).div_const 2
      refine this.congr_deriv ?_
      simp
      ring
    have h2 : HasDerivAt (fun t => p t * Real.exp ((v : ℝ) * t ^ 2 / 2)) _ t := (hp t).mul h1.exp
    rw [h2.deriv]
    ring
  have e1 := hd (fun _ => 1) (fun _ => 0) fun t => hasDerivAt_const t 1
  have e2 := hd (fun t => (v : ℝ) * t) (fun _ => v) fun t => by simpa using (hasDerivAt_id t).const_mul (v : ℝ)
  have e3 := hd (fun t => v + (v : ℝ) * t * (v * t)) (fun t => 2 * (v : ℝ) ^ 2 * t) fun t => by
    have h2 := ((hasDerivAt_pow 2 t).const_mul ((v : ℝ) ^ 2)).const_add (v : ℝ)
    have e : (fun t : ℝ => v + (v : ℝ) * t * (v * t)) = fun t => v + (v : ℝ) ^ 2 * t ^ 2 := by funext t; ring
    rw [e]
    refine h2.congr_deriv ?_
    simp
    ring
  have e4 := hd (fun t => 2 * (v : ℝ) ^ 2 * t + (v + (v : ℝ) * t * (v * t)) * (v * t)) (fun t => 3 * (v : ℝ) ^ 2 + 3 * (v : ℝ) ^ 3 * t ^ 2)
    fun t => by
      have h2 := ((hasDerivAt_id t).const_mul (3 * (v : ℝ) ^ 2)).add ((hasDerivAt_pow 3 t).const_mul ((v : ℝ) ^ 3))
      have e : (fun t => 2 * (v : ℝ) ^ 2 * t + (v + (v : ℝ) * t * (v * t)) * (v * t)) =
          fun t => 3 * (v : ℝ) ^ 2 * t + (v : ℝ) ^ 3 * t ^ 3 := by funext t; ring
      rw [e]
      refine h2.congr_deriv ?_
      simp
      ring
  simp only [zero_add, one_mul] at e1
  rw [iteratedDeriv_succ', e1, iteratedDeriv_succ', e2, iteratedDeriv_succ', e3, iteratedDeriv_succ', e4, iteratedDeriv_zero] at h
  have h3 : ∫ y, y ^ 4 ∂gaussianReal 0 v = ∫ y, (id ^ 4 : ℝ → ℝ) y ∂gaussianReal 0 v := rfl
  rw [h3, ← h]
  simp

theorem fgnCovariance_diag (h0 : 0 < H) (d t : ℝ) : fgnCovariance H sigma d t t = sigma ^ 2 * |d| ^ (2 * H) := by
  unfold fgnCovariance fbmCovariance
  rw [sub_self, sub_self, abs_zero, Real.zero_rpow (by linarith), show t - (t + d) = -d by ring, show t + d - t = d by ring, abs_neg]
  ring

/-- Each sample of the noise is normal with variance `sigma^2 N^(-2H)`. -/
theorem MrwLaw.noise_law (h : MrwLaw μ N H lam L sigma x e w) (h0 : 0 < H) {n : ℕ} (hn : n < N) (r : Fin R) :
    HasGaussianLaw (fun ω => sample e n r ω) μ ∧
    μ.map (fun ω => sample e n r ω) = gaussianReal 0 (sigma ^ 2 * (1 / (N : ℝ)) ^ (2 * H)).toNNReal := by
  have hp := h.noise.gaussian.isProbabilityMeasure
  have hG : HasGaussianLaw (fun ω => sample e n r ω) μ :=
    h.noise.gaussian.map_fun (ContinuousLinearMap.proj (R := ℝ) (φ := fun _ : Fin N × Fin R => ℝ) (⟨n, hn⟩, r))
  refine ⟨hG, ?_⟩
  have e1 := hG.map_eq_gaussianReal
  have hm : ∫ ω, sample e n r ω ∂μ = 0 := h.noise.mean n hn r
  have hv : Var[fun ω => sample e n r ω; μ] = sigma ^ 2 * (1 / (N : ℝ)) ^ (2 * H) := by
    rw [variance_eq_sub hG.memLp_two]
    have := h.noise.cov n hn n hn r r
    rw [if_pos rfl, fgnCovariance_diag h0, abs_of_nonneg (by positivity)] at this
    simp only [Pi.pow_apply, sq]
    rw [hm, mul_zero, sub_zero, this, sq]
  rw [hm, hv] at e1
  exact e1

/-- **C86**, moments of every order `q >= 0`: the absolute moment of an increment is that of a normal variable of variance
`sigma^2 N^(-2H)`, multiplied by `exp(q^2 K(n,n)/2 - q lam^2/2 log L)`. -/
theorem C86_moments (h : MrwLaw μ N H lam L sigma x e w) (h0 : 0 < H) {n : ℕ} (hn : n < N) (r : Fin R) {q : ℝ} (hq : 0 ≤ q) :
    Integrable (fun ω => |increment x n r ω| ^ q) μ ∧
    ∫ ω, |increment x n r ω| ^ q ∂μ = (∫ y, |y| ^ q ∂gaussianReal 0 (sigma ^ 2 * (1 / (N : ℝ)) ^ (2 * H)).toNNReal) *
      Real.exp (q ^ 2 / 2 * centredCovariance (mrwCovariance lam L) N n n - q * (lam ^ 2 / 2 * Real.log L)) := by
  obtain ⟨hG, hlaw⟩ := h.noise_law h0 hn r
  have hp := hG.isProbabilityMeasure
  have key := h.volatility.exp_lin r r (fun k => q * dev N n k) 0
  have hx : (fun ω => |increment x n r ω| ^ q) = fun ω => Real.exp (-(q * (lam ^ 2 / 2 * Real.log L))) * (|sample e n r ω| ^ q *
      Real.exp (∑ k ∈ range N, q * dev N n k * sample w k r ω)) := by
    funext ω
    rw [h.walk n hn r ω, ← sum_dev hn fun k => sample w k r ω, abs_mul, Real.abs_exp, Real.mul_rpow (abs_nonneg _) (Real.exp_pos _).le,
      ← Real.exp_mul, sub_mul, sub_eq_add_neg, Real.exp_add, sum_mul]
    have : ∑ k ∈ range N, dev N n k * sample w k r ω * q = ∑ k ∈ range N, q * dev N n k * sample w k r ω :=
      sum_congr rfl fun k _ => by ring
    rw [this, show lam ^ 2 / 2 * Real.log L * q = q * (lam ^ 2 / 2 * Real.log L) by ring]
    ring
  have k1 : Integrable (fun ω => Real.exp (∑ k ∈ range N, q * dev N n k * sample w k r ω)) μ := by simpa using key.1
  have k2 : ∫ ω, Real.exp (∑ k ∈ range N, q * dev N n k * sample w k r ω) ∂μ
      = Real.exp (q ^ 2 / 2 * centredCovariance (mrwCovariance lam L) N n n) := by
    have h2 := key.2 rfl
    simp only [Pi.zero_apply, zero_mul, sum_const_zero, add_zero] at h2
    rw [h2, ← sum_dev_dev hn hn, mul_sum, sum_div]
    congr 1
    refine sum_congr rfl fun i _ => ?_
    rw [mul_sum, sum_div]
    exact sum_congr rfl fun j _ => by ring
  have hsum : ∀ ω, ∑ k ∈ range N, q * dev N n k * sample w k r ω = ∑ k : Fin N, q * dev N n k * sample w k r ω :=
    fun ω => (Fin.sum_univ_eq_sum_range (fun k => q * dev N n k * sample w k r ω) N).symm
  have hi : IndepFun (fun ω => |sample e n r ω| ^ q) (fun ω => Real.exp (∑ k ∈ range N, q * dev N n k * sample w k r ω)) μ := by
    simp_rw [hsum]
    exact h.indep_pair (f := fun v => |v (⟨n, hn⟩, r)| ^ q) (f' := fun v => Real.exp (∑ k : Fin N, q * dev N n k * v (k, r)))
      (by fun_prop) (by fun_prop)
  have hie : Integrable (fun ω => |sample e n r ω| ^ q) μ := by
    have := (hG.memLp (p := ENNReal.ofReal q) ENNReal.ofReal_ne_top).integrable_norm_rpow'
    simpa [ENNReal.toReal_ofReal hq] using this
  have hlaw' : ∫ ω, |sample e n r ω| ^ q ∂μ = ∫ y, |y| ^ q ∂gaussianReal 0 (sigma ^ 2 * (1 / (N : ℝ)) ^ (2 * H)).toNNReal := by
    rw [← hlaw, integral_map hG.aemeasurable (by fun_prop)]
  refine ⟨?_, ?_⟩
  · rw [hx]; exact (hi.integrable_mul hie k1).const_mul _
  · rw [hx, integral_const_mul, hi.integral_fun_mul_eq_mul_integral hie.1 k1.1, k2, hlaw', sub_eq_add_neg, Real.exp_add]
    ring

/-- **C86**, `H = 1/2`: the increments of the walk are uncorrelated although not independent. -/
theorem C86_uncorrelated (h : MrwLaw μ N (1 / 2) lam L sigma x e w) {n m : ℕ} (hn : n < N) (hm : m < N) (hnm : n ≠ m) (r : Fin R) :
    ∫ ω, increment x n r ω * increment x m r ω ∂μ = 0 := by
  have hN : (0:ℝ) < N := by exact_mod_cast (by omega : 0 < N)
  rw [(C86_covariance h hn hm r r).2.2.2, if_pos rfl, ← fgnCov_spec (by positivity : (0:ℝ) < 1 / N), fgnCov_half,
    if_neg (by omega), zero_mul]

/-- **C86**, variance and flatness: the increments have variance `sigma^2 N^(-2H) exp(2 K(n,n) - lam^2 log L)`, and their flatness
(fourth moment over squared second moment) is `3 exp(4 K(n,n))`, where 3 is that of a normal variable. -/
theorem C86_flatness (h : MrwLaw μ N H lam L sigma x e w) (h0 : 0 < H) {n : ℕ} (hn : n < N) (r : Fin R) :
    ∫ ω, increment x n r ω ^ 2 ∂μ = sigma ^ 2 * (1 / (N : ℝ)) ^ (2 * H) *
      Real.exp (2 * centredCovariance (mrwCovariance lam L) N n n - lam ^ 2 * Real.log L) ∧
    ∫ ω, increment x n r ω ^ 4 ∂μ =
      3 * Real.exp (4 * centredCovariance (mrwCovariance lam L) N n n) * (∫ ω, increment x n r ω ^ 2 ∂μ) ^ 2 := by
  have hsq : ∫ ω, increment x n r ω ^ 2 ∂μ = sigma ^ 2 * (1 / (N : ℝ)) ^ (2 * H) *
      Real.exp (2 * centredCovariance (mrwCovariance lam L) N n n - lam ^ 2 * Real.log L) := by
    have h2 := (C86_covariance h hn hn r r).2.2.2
    rw [if_pos rfl, fgnCovariance_diag h0, abs_of_nonneg (by positivity)] at h2
    simp_rw [sq (increment x n r _)]
    rw [h2]
    congr 2
    ring
  refine ⟨hsq, ?_⟩
  have h4 := (C86_moments h h0 hn r (q := 4) (by norm_num)).2
  have ep : ∀ y : ℝ, |y| ^ (4:ℝ) = y ^ 4 := by
    intro y
    rw [show (4:ℝ) = ((4:ℕ):ℝ) by norm_num, Real.rpow_natCast, Even.pow_abs (by decide)]
  simp_rw [ep] at h4
  rw [h4, hsq, mul_pow _ (Real.exp _), ← Real.exp_nat_mul, gaussian_fourth, Real.coe_toNNReal _ (by positivity)]
  have : Real.exp (4 ^ 2 / 2 * centredCovariance (mrwCovariance lam L) N n n - 4 * (lam ^ 2 / 2 * Real.log L)) =
      Real.exp ((2:ℕ) * (2 * centredCovariance (mrwCovariance lam L) N n n - lam ^ 2 * Real.log L)) *
        Real.exp (4 * centredCovariance (mrwCovariance lam L) N n n) := by
    rw [← Real.exp_add]; congr 1; push_cast; ring
  rw [this]
  ring

theorem sum_mrwCovariance_le (hL : 1 ≤ L) (N n : ℕ) : ∑ j ∈ range N, mrwCovariance lam L n j ≤ 2 * L * (lam ^ 2 * Real.log L) := by
  have hlog : 0 ≤ Real.log L := Real.log_nonneg hL
  have h1 : ∀ j, mrwCovariance lam L n j ≤ if j ∈ Finset.Icc (n + 1 - ⌊L⌋₊) (n + ⌊L⌋₊ - 1) then lam ^ 2 * Real.log L else 0 := by
    intro j
    unfold mrwCovariance mrwLogCovariance
    split_ifs with ha hb hb
    · refine mul_le_mul_of_nonneg_left (Real.log_le_log (by positivity) ?_) (sq_nonneg _)
      exact div_le_self (by linarith) (by linarith [(Nat.cast_nonneg (Int.natAbs ((n:ℤ) - j)) : (0:ℝ) ≤ _)])
    · exfalso
      have hf : Int.natAbs ((n : ℤ) - j) + 1 ≤ ⌊L⌋₊ := Nat.le_floor (by push_cast at ha ⊢; exact ha)
      rw [Finset.mem_Icc] at hb
      omega
    · positivity
    · exact le_rfl
  have hfl : 1 ≤ ⌊L⌋₊ := Nat.le_floor (by simpa using hL)
  calc ∑ j ∈ range N, mrwCovariance lam L n j
      ≤ ∑ j ∈ range N, if j ∈ Finset.Icc (n + 1 - ⌊L⌋₊) (n + ⌊L⌋₊ - 1) then lam ^ 2 * Real.log L else 0 := sum_le_sum fun j _ => h1 j
    _ = ((range N).filter (· ∈ Finset.Icc (n + 1 - ⌊L⌋₊) (n + ⌊L⌋₊ - 1))).card * (lam ^ 2 * Real.log L) := by
        rw [← sum_filter, sum_const, nsmul_eq_mul]
    _ ≤ 2 * L * (lam ^ 2 * Real.log L) := by
        refine mul_le_mul_of_nonneg_right ?_ (by positivity)
        have hc : ((range N).filter (· ∈ Finset.Icc (n + 1 - ⌊L⌋₊) (n + ⌊L⌋₊ - 1))).card ≤ 2 * ⌊L⌋₊ := by
          refine (Finset.card_le_card fun j hj => (mem_filter.1 hj).2).trans ?_
          rw [Nat.card_Icc]
          omega
        have hc' : (((range N).filter (· ∈ Finset.Icc (n + 1 - ⌊L⌋₊) (n + ⌊L⌋₊ - 1))).card : ℝ) ≤ 2 * (⌊L⌋₊ : ℝ) := by exact_mod_cast hc
        linarith [Nat.floor_le (by linarith : 0 ≤ L)]

/-- **C86**, a consequence users should know: the comment "adjust mean to ensure convergence of variance" does not hold.  The
shift is half of what it should be, and the increments have a variance larger than `sigma^2 N^(-2H)` by a factor of at least
`L^(lam^2 (1 - 8 L/N))`: strictly larger when `lam /= 0`, `L > 1` and `N > 8 L`. -/
theorem C86_variance_inflated (h : MrwLaw μ N H lam L sigma x e w) (h0 : 0 < H) (hL : 1 ≤ L) {n : ℕ} (hn : n < N) (r : Fin R) :
    sigma ^ 2 * (1 / (N : ℝ)) ^ (2 * H) * L ^ (lam ^ 2 * (1 - 8 * L / N)) ≤ ∫ ω, increment x n r ω ^ 2 ∂μ ∧
    (sigma ≠ 0 → lam ≠ 0 → 1 < L → 8 * L < N → sigma ^ 2 * (1 / (N : ℝ)) ^ (2 * H) < ∫ ω, increment x n r ω ^ 2 ∂μ) := by
  have hN : (0:ℝ) < N := by exact_mod_cast (by omega : 0 < N)
  have hL0 : 0 < L := by linarith
  have hK : lam ^ 2 * Real.log L * (1 - 4 * L / N) ≤ centredCovariance (mrwCovariance lam L) N n n := by
    have s1 := sum_mrwCovariance_le (lam := lam) hL N n
    have s2 : ∑ i ∈ range N, mrwCovariance lam L i n ≤ 2 * L * (lam ^ 2 * Real.log L) := by
      rw [sum_congr rfl fun i _ => mrwCovariance_symm lam L i n]; exact s1
    have s3 : 0 ≤ ∑ i ∈ range N, ∑ j ∈ range N, mrwCovariance lam L i j :=
      sum_nonneg fun i _ => sum_nonneg fun j _ => mrwLog_nonneg lam hL0 _
    have s4 : mrwCovariance lam L n n = lam ^ 2 * Real.log L := by
      unfold mrwCovariance mrwLogCovariance
      simp [hL]
    unfold centredCovariance
    rw [s4]
    have d1 := div_le_div_of_nonneg_right s1 hN.le
    have d2 := div_le_div_of_nonneg_right s2 hN.le
    have d3 : 0 ≤ (∑ i ∈ range N, ∑ j ∈ range N, mrwCovariance lam L i j) / (N : ℝ) ^ 2 := by positivity
    have e : lam ^ 2 * Real.log L * (1 - 4 * L / N) = lam ^ 2 * Real.log L - 2 * (2 * L * (lam ^ 2 * Real.log L) / N) := by ring
    rw [e]
    linarith
  have hv := (C86_flatness h h0 hn r).1
  have hA : 0 ≤ sigma ^ 2 * (1 / (N : ℝ)) ^ (2 * H) := by positivity
  have hle : L ^ (lam ^ 2 * (1 - 8 * L / N)) ≤ Real.exp (2 * centredCovariance (mrwCovariance lam L) N n n - lam ^ 2 * Real.log L) := by
    rw [Real.rpow_def_of_pos hL0]
    apply Real.exp_le_exp.2
    have e : Real.log L * (lam ^ 2 * (1 - 8 * L / N)) = 2 * (lam ^ 2 * Real.log L * (1 - 4 * L / N)) - lam ^ 2 * Real.log L := by ring
    rw [e]
    linarith
  have hmain : sigma ^ 2 * (1 / (N : ℝ)) ^ (2 * H) * L ^ (lam ^ 2 * (1 - 8 * L / N)) ≤ ∫ ω, increment x n r ω ^ 2 ∂μ := by
    rw [hv]; exact mul_le_mul_of_nonneg_left hle hA
  refine ⟨hmain, fun hs hl hL1 h8 => lt_of_lt_of_le ?_ hmain⟩
  have hApos : 0 < sigma ^ 2 * (1 / (N : ℝ)) ^ (2 * H) := by positivity
  refine lt_mul_of_one_lt_right hApos (Real.one_lt_rpow hL1 ?_)
  have : 8 * L / N < 1 := by rw [div_lt_one hN]; exact h8
  have : 0 < lam ^ 2 := by positivity
  exact mul_pos this (by linarith)

theorem noiseCoef_zero {cov : List ℝ} (h : ∀ k, cov.getD k 0 = 0) (n : ℕ) (i : ℕ × Bool) : noiseCoef cov n i = 0 := by
  have : cmeCoef cov n i.1 = 0 := by
    unfold cmeCoef
    have hs : cosSpectrum cov i.1 = 0 := by
      unfold cosSpectrum
      exact sum_eq_zero fun k _ => by rw [h, zero_mul]
    rw [hs]
    simp [csqrt]
  unfold noiseCoef
  rw [this]
  simp

/-- **C86**, no intermittency: for `lam = 0` the walk is exactly (for every random stream) the fractional Brownian motion that `fbm`
returns on the draws that follow those used for the log-volatility. -/
theorem C86_lam_zero (h0 : 0 ≤ H) (h1 : H ≤ 1) (hL : 0 < L) (hLN : L ≤ N) (hN : 2 ≤ N) (g : Rng) :
    ∃ s t : Sim R, mrw R N H 0 L sigma "cme" (none, none) g = .ok s ∧
      fbm R N H sigma none "cme" none (g.skip (2 * ((2 * N - 2) * R))) = .ok t ∧ s.x = t.x := by
  have hlen : ((List.range N).map (wCov L 0 1)).length = N := by simp
  have hw := gaussianW_cme_eq (R := R) (lam := 0) hL one_pos (by simpa using hLN) none g
  have hwc := gaussianCme_eq (R := R) ((List.range N).map (wCov L 0 1)) (by omega) g
  rw [hlen] at hwc
  rw [hwc] at hw
  have hz : ∀ k, ((List.range N).map (wCov L 0 1)).getD k 0 = 0 := by
    intro k
    rw [List.getD_eq_getElem?_getD, List.getElem?_map]
    rcases (List.range N)[k]? with _ | j <;> simp [wCov]
  simp only [noiseCoef_zero hz, zero_mul, sum_const_zero] at hw
  obtain ⟨e, he, hel⟩ : ∃ e, fgn R N H sigma none "cme" none (g.skip (2 * ((2 * N - 2) * R))) = .ok e ∧ e.x.length = N := by
    obtain ⟨s, hs⟩ := (C73_fgn (R := R) (sigma := sigma) (dt := none) none hN (by simp) (g.skip (2 * ((2 * N - 2) * R)))).1.2 ⟨h0, h1⟩
    exact ⟨s, hs, fgn_length hs⟩
  have hwalk : expWalk e.x (adjustMean (1 / 2) 0 L ((List.range N).map fun (_ : ℕ) (_ : Fin R) => (0:ℝ))) = .ok (cumsum e.x) := by
    rw [expWalk_eq (by simp [adjustMean, hel])]
    have hadj : adjustMean (1 / 2) 0 L ((List.range N).map fun (_ : ℕ) (_ : Fin R) => (0:ℝ)) = (List.range N).map fun _ _ => 0 := by
      unfold adjustMean
      rw [List.map_map]
      refine List.map_congr_left fun k _ => ?_
      funext r
      simp [meanRow]
    rw [hadj]
    congr 2
    refine List.ext_getElem (by simp [hel]) fun n hn hn' => ?_
    funext r
    rw [List.getElem_zipWith, List.getElem_map, Real.exp_zero, mul_one]
  refine ⟨{ x := cumsum e.x, warned := cmeWarns ((List.range N).map (wCov L 0 1)) || e.warned, rng := e.rng },
    { e with x := cumsum e.x }, ?_, by rw [fbm, he], rfl⟩
  unfold mrw
  rw [if_neg (by simp [h0, h1]), if_neg (not_lt.mpr hLN), hw]
  simp only []
  rw [he]
  simp only []
  rw [hwalk]

/-- C86 on a concrete call: 2 realisations of 1024 samples, `H = 0.6`, `lam = 0.2`, integral scale 512. -/
example : ∃ (Ω : Type) (_ : MeasurableSpace Ω) (μ : Measure Ω) (g : Ω → ℕ → ℝ) (x e w : Ω → RArr 2), StdNormal μ g ∧
    Returns (mrw 2 1024 (3 / 5) (1 / 5) 512 1 "cme" (none, none)) g x ∧ MrwLaw μ 1024 (3 / 5) (1 / 5) 512 1 x e w := by
  obtain ⟨Ω, m, μ, g, h⟩ := exists_stdNormal
  obtain ⟨-, x, e, w, hx, hl⟩ := C86_law (R := 2) (N := 1024) (H := 3 / 5) (lam := 1 / 5) (L := 512) (sigma := 1) (by norm_num)
    (by norm_num) (by norm_num) (by norm_num) (by norm_num) (by norm_num) h
  exact ⟨Ω, m, μ, g, x, e, w, h, hx, hl⟩

end

end MFA
