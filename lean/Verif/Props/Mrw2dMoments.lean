import Verif.Props.Mrw2d
import Mathlib.Algebra.Order.Chebyshev

/-!
# C84, continued: what the covariance of the log-volatility is worth, moments, arguments
-/

namespace MFA

open MeasureTheory ProbabilityTheory Finset

noncomputable section

variable {N R : ℕ} {Ω : Type*} [MeasurableSpace Ω] {μ : Measure Ω} {lam L : ℝ}

theorem torus_nonneg (a b : Fin N) : 0 ≤ torusCovariance N lam L a b :=
  mul_nonneg (sq_nonneg _) (Real.log_nonneg (le_max_right _ _))

theorem torus_le (a b : Fin N) : torusCovariance N lam L a b ≤ lam ^ 2 * Real.log (max L 1) := by
  unfold torusCovariance
  refine mul_le_mul_of_nonneg_left (Real.log_le_log (lt_of_lt_of_le one_pos (le_max_right _ _)) ?_) (sq_nonneg _)
  have hs := Real.sqrt_nonneg ((freq N a : ℝ) ^ 2 + (freq N b : ℝ) ^ 2)
  refine max_le ?_ (le_max_right _ _)
  rcases le_or_gt 0 L with h | h
  · exact (div_le_self h (by linarith)).trans (le_max_left _ _)
  · exact (div_nonpos_of_nonpos_of_nonneg h.le (by linarith)).trans (zero_le_one.trans (le_max_right _ _))

theorem freq_zero [NeZero N] : freq N 0 = 0 := by
  unfold freq
  rw [if_pos (by simp [NeZero.pos N])]
  simp

theorem torus_zero [NeZero N] : torusCovariance N lam L 0 0 = lam ^ 2 * Real.log (max L 1) := by
  unfold torusCovariance
  rw [freq_zero]
  simp

theorem freq_neg_sq (k : Fin N) : (freq N (negIdx k) : ℝ) ^ 2 = (freq N k : ℝ) ^ 2 := by
  rw [freq_neg]; split <;> simp

theorem torus_neg (a b : Fin N) : torusCovariance N lam L (negIdx a) (negIdx b) = torusCovariance N lam L a b := by
  unfold torusCovariance
  rw [freq_neg_sq, freq_neg_sq]

theorem negIdx_negIdx (k : Fin N) : negIdx (negIdx k) = k := by
  have hk := k.isLt
  apply Fin.ext
  show (N - (N - k) % N) % N = k
  by_cases h : (k : ℕ) = 0
  · rw [h]; simp
  · rw [Nat.mod_eq_of_lt (by omega : N - (k : ℕ) < N), Nat.mod_eq_of_lt (by omega)]; omega

def negEquiv (N : ℕ) : Fin N ≃ Fin N := ⟨negIdx, negIdx, negIdx_negIdx, negIdx_negIdx⟩

theorem spectrum2_ee (x : Fin N → Fin N → ℝ) (k l : Fin N) :
    spectrum2 x k l = ∑ a : Fin N, ∑ b : Fin N, (x a b : ℂ) * (ee N (-((k : ℤ) * a)) * ee N (-((l : ℤ) * b))) := by
  unfold spectrum2
  exact sum_congr rfl fun a _ => sum_congr rfl fun b _ => by rw [exp_neg_pair]

/-- The spectrum of an even image is real. -/
theorem spectrum_even_im {x : Fin N → Fin N → ℝ} (hx : ∀ a b, x (negIdx a) (negIdx b) = x a b) (k l : Fin N) :
    (spectrum2 x k l).im = 0 := by
  rw [← Complex.conj_eq_iff_im]
  rw [spectrum2_ee, map_sum, ← Equiv.sum_comp (negEquiv N)]
  refine sum_congr rfl fun a _ => ?_
  rw [map_sum, ← Equiv.sum_comp (negEquiv N)]
  refine sum_congr rfl fun b _ => ?_
  show (starRingEnd ℂ) (_ * (ee N (-((k : ℤ) * (negIdx a : ℕ))) * ee N (-((l : ℤ) * (negIdx b : ℕ))))) = _
  rw [map_mul, map_mul, ee_conj, ee_conj, neg_neg, neg_neg, Complex.conj_ofReal]
  show ((x (negIdx a) (negIdx b) : ℝ) : ℂ) * _ = _
  rw [hx, mul_comm (k : ℤ), mul_comm (l : ℤ), ee_negIdx, ee_negIdx, mul_comm (a : ℤ), mul_comm (b : ℤ)]

/-- Inversion, for one real image. -/
theorem spectrum_inv (x : Fin N → Fin N → ℝ) (a b : Fin N) :
    ∑ k : Fin N, ∑ l : Fin N, spectrum2 x k l * (ee N ((k : ℤ) * a) * ee N ((l : ℤ) * b)) = (N : ℂ) ^ 2 * x a b := by
  have hN : (N : ℂ) ≠ 0 := by have := a.isLt; exact_mod_cast (by omega : N ≠ 0)
  have h := congrFun (congrFun (congrFun (ifft2_fft2 (R := 1) fun a b _ => (x a b : ℂ)) a) b) 0
  unfold ifft2 at h
  simp_rw [exp_pair] at h
  rw [div_eq_iff (pow_ne_zero 2 hN)] at h
  rw [mul_comm, ← h]
  rfl

theorem ee_sub_idx [NeZero N] (k a a' : Fin N) : ee N ((k : ℤ) * ((a - a' : Fin N) : ℕ)) = ee N ((k : ℤ) * ((a : ℤ) - a')) := by
  have hN := NeZero.ne N
  have ha := a'.isLt
  have hv : ((a - a' : Fin N) : ℕ) = (N - a' + a) % N := Fin.val_sub _ _
  have hz : (((a - a' : Fin N) : ℕ) : ℤ) = (a : ℤ) - a' + N * (1 - (((N - a' + a) / N : ℕ) : ℤ)) := by
    rw [hv]
    have := Nat.mod_add_div (N - (a' : ℕ) + a) N
    zify [ha.le] at this ⊢
    linarith
  rw [hz, mul_add, show (k : ℤ) * (N * (1 - (((N - a' + a) / N : ℕ) : ℤ))) = N * (k * (1 - (((N - a' + a) / N : ℕ) : ℤ))) by ring,
    ee_periodic hN]

theorem cos_ee (k l a b a' b' : Fin N) : Real.cos (2 * Real.pi * ((k : ℝ) * ((a : ℝ) - a') + (l : ℝ) * ((b : ℝ) - b')) / N) =
    (ee N ((k : ℤ) * ((a : ℤ) - a')) * ee N ((l : ℤ) * ((b : ℤ) - b'))).re := by
  rw [← ee_add, ee_re]
  push_cast
  rfl

theorem sum_norm_le (x : Fin N → Fin N → ℝ) {c : ℝ} (hc : 0 ≤ c) (hx : ∀ a b, |x a b| ≤ c) :
    ∑ k : Fin N, ∑ l : Fin N, ‖spectrum2 x k l‖ ≤ (N : ℝ) ^ 3 * c := by
  have h2 := parseval2 (R := 1) (fun a b _ => (x a b : ℂ)) 0
  have h3 : ∑ a : Fin N, ∑ b : Fin N, Complex.normSq (x a b : ℂ) ≤ (N : ℝ) ^ 2 * c ^ 2 := by
    calc ∑ a : Fin N, ∑ b : Fin N, Complex.normSq (x a b : ℂ) ≤ ∑ a : Fin N, ∑ b : Fin N, c ^ 2 := by
          refine sum_le_sum fun a _ => sum_le_sum fun b _ => ?_
          rw [Complex.normSq_ofReal, ← abs_mul_abs_self, ← sq]
          exact pow_le_pow_left₀ (abs_nonneg _) (hx a b) 2
      _ = (N : ℝ) ^ 2 * c ^ 2 := by simp; ring
  have h4 : (∑ p : Fin N × Fin N, ‖spectrum2 x p.1 p.2‖) ^ 2 ≤ ((N : ℝ) ^ 3 * c) ^ 2 := by
    calc (∑ p : Fin N × Fin N, ‖spectrum2 x p.1 p.2‖) ^ 2
        ≤ (univ : Finset (Fin N × Fin N)).card * ∑ p : Fin N × Fin N, ‖spectrum2 x p.1 p.2‖ ^ 2 := sq_sum_le_card_mul_sum_sq
      _ = (N : ℝ) ^ 2 * ((N : ℝ) ^ 2 * ∑ a : Fin N, ∑ b : Fin N, Complex.normSq (x a b : ℂ)) := by
          rw [← h2, Fintype.sum_prod_type]
          simp_rw [← Complex.normSq_eq_norm_sq]
          simp only [card_univ, Fintype.card_prod, Fintype.card_fin]
          push_cast
          rw [sq]
          rfl
      _ ≤ (N : ℝ) ^ 2 * ((N : ℝ) ^ 2 * ((N : ℝ) ^ 2 * c ^ 2)) := by gcongr
      _ = ((N : ℝ) ^ 3 * c) ^ 2 := by ring
  rw [← Fintype.sum_prod_type']
  exact le_of_sq_le_sq h4 (by positivity)
where
  le_of_sq_le_sq {a b : ℝ} (h : a ^ 2 ≤ b ^ 2) (hb : 0 ≤ b) : a ≤ b := abs_le_of_sq_le_sq' h hb |>.2

theorem field_diag (a b : Fin N) : fieldCovariance N lam L a b a b =
    (∑ k : Fin N, ∑ l : Fin N, ‖spectrum2 (torusCovariance N lam L) k l‖) / (N : ℝ) ^ 4 := by
  unfold fieldCovariance
  congr 1
  refine sum_congr rfl fun k _ => sum_congr rfl fun l _ => ?_
  rw [sub_self, sub_self, mul_zero, mul_zero, add_zero, mul_zero, zero_div, Real.cos_zero, mul_one]

/-- **C84**, a consequence users should know: the variance of the log-volatility, which should be `lam^2 log L`, is at most
`lam^2 log L / N` (and at least `lam^2 log L / N^2`): it vanishes when the size of the image increases, whatever the intermittency
asked for.  Covariances are at most that variance. -/
theorem C84_vanishing (a b a' b' : Fin N) :
    lam ^ 2 * Real.log (max L 1) / (N : ℝ) ^ 2 ≤ fieldCovariance N lam L a b a b ∧
    fieldCovariance N lam L a b a b ≤ lam ^ 2 * Real.log (max L 1) / N ∧
    |fieldCovariance N lam L a b a' b'| ≤ lam ^ 2 * Real.log (max L 1) / N := by
  have hN : 0 < N := by have := a.isLt; omega
  have : NeZero N := ⟨hN.ne'⟩
  have hN' : (0:ℝ) < N := by exact_mod_cast hN
  have hc : 0 ≤ lam ^ 2 * Real.log (max L 1) := mul_nonneg (sq_nonneg _) (Real.log_nonneg (le_max_right _ _))
  have hup := sum_norm_le (torusCovariance N lam L) hc fun a b => by rw [abs_of_nonneg (torus_nonneg a b)]; exact torus_le a b
  have e : lam ^ 2 * Real.log (max L 1) / N = (N : ℝ) ^ 3 * (lam ^ 2 * Real.log (max L 1)) / (N : ℝ) ^ 4 := by
    field_simp
  refine ⟨?_, ?_, ?_⟩
  · rw [field_diag]
    have h := spectrum_inv (torusCovariance N lam L) 0 0
    have h1 := congrArg Complex.re h
    rw [torus_zero] at h1
    have h2 : ((N : ℂ) ^ 2 * ((lam ^ 2 * Real.log (max L 1) : ℝ) : ℂ)).re = (N : ℝ) ^ 2 * (lam ^ 2 * Real.log (max L 1)) := by
      rw [← Complex.ofReal_natCast, ← Complex.ofReal_pow, ← Complex.ofReal_mul, Complex.ofReal_re]
    rw [h2] at h1
    have h3 : (N : ℝ) ^ 2 * (lam ^ 2 * Real.log (max L 1)) ≤ ∑ k : Fin N, ∑ l : Fin N, ‖spectrum2 (torusCovariance N lam L) k l‖ := by
      rw [← h1, Complex.re_sum]
      refine sum_le_sum fun k _ => ?_
      rw [Complex.re_sum]
      refine sum_le_sum fun l _ => ?_
      simp only [Fin.val_zero, Nat.cast_zero, mul_zero, ee_zero, mul_one]
      exact Complex.re_le_norm _
    rw [div_le_div_iff₀ (by positivity) (by positivity)]
    calc lam ^ 2 * Real.log (max L 1) * (N : ℝ) ^ 4 = (N : ℝ) ^ 2 * ((N : ℝ) ^ 2 * (lam ^ 2 * Real.log (max L 1))) := by ring
      _ ≤ (N : ℝ) ^ 2 * ∑ k : Fin N, ∑ l : Fin N, ‖spectrum2 (torusCovariance N lam L) k l‖ := by gcongr
      _ = _ := by ring
  · rw [field_diag, e]
    gcongr
  · unfold fieldCovariance
    rw [abs_div, abs_of_nonneg (by positivity : (0:ℝ) ≤ (N : ℝ) ^ 4), e]
    gcongr
    refine le_trans ?_ hup
    refine (abs_sum_le_sum_abs _ _).trans (sum_le_sum fun k _ => (abs_sum_le_sum_abs _ _).trans (sum_le_sum fun l _ => ?_))
    rw [abs_mul, abs_of_nonneg (norm_nonneg _)]
    exact mul_le_of_le_one_right (norm_nonneg _) (Real.abs_cos_le_one _)

/-- **C84**: whenever the intended covariance is one (its spectrum is nonnegative), the log-volatility has exactly the intended
covariance divided by `N^2`. -/
theorem C84_scaled [NeZero N] (hpos : ∀ k l, 0 ≤ (spectrum2 (torusCovariance N lam L) k l).re) (a b a' b' : Fin N) :
    fieldCovariance N lam L a b a' b' = torusCovariance N lam L (a - a') (b - b') / (N : ℝ) ^ 2 := by
  have hN' : (N:ℝ) ≠ 0 := by exact_mod_cast NeZero.ne N
  have hreal : ∀ k l, spectrum2 (torusCovariance N lam L) k l = ((spectrum2 (torusCovariance N lam L) k l).re : ℂ) := by
    intro k l
    apply Complex.ext
    · simp
    · rw [spectrum_even_im torus_neg]; simp
  have h := spectrum_inv (torusCovariance N lam L) (a - a') (b - b')
  have h1 := congrArg Complex.re h
  rw [← Complex.ofReal_natCast, ← Complex.ofReal_pow, ← Complex.ofReal_mul, Complex.ofReal_re] at h1
  have h2 : ∑ k : Fin N, ∑ l : Fin N, ‖spectrum2 (torusCovariance N lam L) k l‖ *
      Real.cos (2 * Real.pi * ((k : ℝ) * ((a : ℝ) - a') + (l : ℝ) * ((b : ℝ) - b')) / N)
      = (N : ℝ) ^ 2 * torusCovariance N lam L (a - a') (b - b') := by
    rw [← h1, Complex.re_sum]
    refine sum_congr rfl fun k _ => ?_
    rw [Complex.re_sum]
    refine sum_congr rfl fun l _ => ?_
    rw [ee_sub_idx, ee_sub_idx, cos_ee, hreal k l, Complex.re_ofReal_mul, Complex.norm_real, Real.norm_eq_abs, abs_of_nonneg (hpos k l)]
  unfold fieldCovariance
  rw [h2]
  field_simp

/-! ### Moments -/

variable {X e v : Ω → Fin N → Fin N → Fin R → ℝ}

theorem GaussianField.integrable1 {ι : Type} [Fintype ι] {Y : Ω → ι → ℝ} {Γ : ι → ι → ℝ} (h : GaussianField μ Y Γ) (i : ι) :
    HasGaussianLaw (fun ω => Y ω i) μ :=
  h.gaussian.map_fun (ContinuousLinearMap.proj (R := ℝ) (φ := fun _ : ι => ℝ) i)

theorem GaussianField.integrable {ι : Type} [Fintype ι] {Y : Ω → ι → ℝ} {Γ : ι → ι → ℝ} (h : GaussianField μ Y Γ) (i j : ι) :
    Integrable (fun ω => Y ω i * Y ω j) μ :=
  (h.integrable1 i).memLp_two.integrable_mul (h.integrable1 j).memLp_two

theorem Mrw2dLaw.exp_vol (h : Mrw2dLaw μ lam L X e v) (q : ℝ) (a b : Fin N) (r : Fin R) :
    Integrable (fun ω => Real.exp (q * v ω a b r)) μ ∧
    ∫ ω, Real.exp (q * v ω a b r) ∂μ = Real.exp (q ^ 2 / 2 * fieldCovariance N lam L a b a b) := by
  classical
  have key := exp_lin h.volatility.gaussian h.volatility.mean (fun p => if p = (a, b, r) then q else 0)
  have e1 : ∀ ω, ∑ p : Fin N × Fin N × Fin R, (if p = (a, b, r) then q else 0) * v ω p.1 p.2.1 p.2.2 = q * v ω a b r := by
    intro ω; simp only [ite_mul, zero_mul, sum_ite_eq', mem_univ, if_true]
  simp_rw [e1, h.volatility.cov] at key
  refine ⟨key.1, key.2.trans ?_⟩
  congr 1
  rw [sum_eq_single (a, b, r) (fun p _ hp => sum_eq_zero fun p' _ => by simp [hp]) (by simp),
    sum_eq_single (a, b, r) (fun p _ hp => by simp [hp]) (by simp)]
  simp only [if_true]
  ring

theorem Mrw2dLaw.exp_vol2 (h : Mrw2dLaw μ lam L X e v) (p q : Fin N × Fin N × Fin R) :
    Integrable (fun ω => Real.exp (v ω p.1 p.2.1 p.2.2 + v ω q.1 q.2.1 q.2.2)) μ := by
  classical
  have key := exp_lin h.volatility.gaussian h.volatility.mean (fun s => (if s = p then 1 else 0) + if s = q then 1 else 0)
  have e1 : ∀ ω, ∑ s : Fin N × Fin N × Fin R, ((if s = p then (1:ℝ) else 0) + if s = q then 1 else 0) * v ω s.1 s.2.1 s.2.2 =
      v ω p.1 p.2.1 p.2.2 + v ω q.1 q.2.1 q.2.2 := by
    intro ω; simp only [add_mul, sum_add_distrib, ite_mul, one_mul, zero_mul, sum_ite_eq', mem_univ, if_true]
  simp_rw [e1] at key
  exact key.1

theorem Mrw2dLaw.indep (h : Mrw2dLaw μ lam L X e v) {f f' : (Fin N × Fin N × Fin R → ℝ) → ℝ} (hf : Measurable f) (hf' : Measurable f') :
    IndepFun (fun ω => f fun p => e ω p.1 p.2.1 p.2.2) (fun ω => f' fun p => v ω p.1 p.2.1 p.2.2) μ :=
  h.independent.comp hf hf'

theorem Mrw2dLaw.noise_law (h : Mrw2dLaw μ lam L X e v) (a b : Fin N) (r : Fin R) :
    μ.map (fun ω => e ω a b r) = gaussianReal 0 1 := by
  have hG := h.noise.integrable1 (a, b, r)
  have hp := hG.isProbabilityMeasure
  have e1 := hG.map_eq_gaussianReal
  have hm := h.noise.mean (a, b, r)
  have hv : Var[fun ω => e ω a b r; μ] = 1 := by
    rw [variance_eq_sub hG.memLp_two]
    have := h.noise.cov (a, b, r) (a, b, r)
    rw [if_pos rfl] at this
    simp only [Pi.pow_apply, sq]
    simp only [] at hm
    rw [hm, mul_zero, sub_zero, this]
  simp only [] at e1 hm
  rw [hm, hv] at e1
  simpa using e1

/-- **C84**, second order: the values of `X` are centred and uncorrelated (two points of the image, two realisations), and their variance is
`exp(2 V)`, `V` being the variance of the log-volatility. -/
theorem C84_covariance (h : Mrw2dLaw μ lam L X e v) (p q : Fin N × Fin N × Fin R) :
    Integrable (fun ω => X ω p.1 p.2.1 p.2.2) μ ∧ ∫ ω, X ω p.1 p.2.1 p.2.2 ∂μ = 0 ∧
    Integrable (fun ω => X ω p.1 p.2.1 p.2.2 * X ω q.1 q.2.1 q.2.2) μ ∧
    ∫ ω, X ω p.1 p.2.1 p.2.2 * X ω q.1 q.2.1 q.2.2 ∂μ =
      if p = q then Real.exp (2 * fieldCovariance N lam L p.1 p.2.1 p.1 p.2.1) else 0 := by
  have hp := h.noise.gaussian.isProbabilityMeasure
  have hx : (fun ω => X ω p.1 p.2.1 p.2.2 * X ω q.1 q.2.1 q.2.2) = fun ω => (e ω p.1 p.2.1 p.2.2 * e ω q.1 q.2.1 q.2.2) *
      Real.exp (v ω p.1 p.2.1 p.2.2 + v ω q.1 q.2.1 q.2.2) := by
    funext ω
    rw [h.field, h.field, Real.exp_add]
    ring
  have i1 : IndepFun (fun ω => e ω p.1 p.2.1 p.2.2) (fun ω => Real.exp (v ω p.1 p.2.1 p.2.2)) μ :=
    h.indep (f := fun w => w p) (f' := fun w => Real.exp (w p)) (by fun_prop) (by fun_prop)
  have i2 : IndepFun (fun ω => e ω p.1 p.2.1 p.2.2 * e ω q.1 q.2.1 q.2.2)
      (fun ω => Real.exp (v ω p.1 p.2.1 p.2.2 + v ω q.1 q.2.1 q.2.2)) μ :=
    h.indep (f := fun w => w p * w q) (f' := fun w => Real.exp (w p + w q)) (by fun_prop) (by fun_prop)
  have k1 : Integrable (fun ω => Real.exp (v ω p.1 p.2.1 p.2.2)) μ := by simpa using (h.exp_vol 1 p.1 p.2.1 p.2.2).1
  have k2 := h.exp_vol2 p q
  have n1 : Integrable (fun ω => e ω p.1 p.2.1 p.2.2) μ := (h.noise.integrable1 p).integrable
  have n2 : Integrable (fun ω => e ω p.1 p.2.1 p.2.2 * e ω q.1 q.2.1 q.2.2) μ := h.noise.integrable p q
  have hc := h.noise.cov p q
  have hm := h.noise.mean p
  refine ⟨?_, ?_, ?_, ?_⟩
  · simp_rw [h.field]; exact i1.integrable_mul n1 k1
  · simp_rw [h.field]
    rw [i1.integral_fun_mul_eq_mul_integral n1.1 k1.1, hm, zero_mul]
  · rw [hx]; exact i2.integrable_mul n2 k2
  · rw [hx, i2.integral_fun_mul_eq_mul_integral n2.1 k2.1, hc]
    split
    · rename_i hpq
      subst hpq
      have := (h.exp_vol 2 p.1 p.2.1 p.2.2).2
      simp_rw [two_mul] at this
      rw [this, one_mul]
      congr 1; ring
    · rw [zero_mul]

/-- **C84**, moments of every order `q >= 0`: that of a standard normal variable times `exp(q^2 V / 2)`; the flatness is
`3 exp(4 V)`. -/
theorem C84_moments (h : Mrw2dLaw μ lam L X e v) (a b : Fin N) (r : Fin R) {q : ℝ} (hq : 0 ≤ q) :
    Integrable (fun ω => |X ω a b r| ^ q) μ ∧
    ∫ ω, |X ω a b r| ^ q ∂μ = (∫ y, |y| ^ q ∂gaussianReal 0 1) * Real.exp (q ^ 2 / 2 * fieldCovariance N lam L a b a b) := by
  have hG := h.noise.integrable1 (a, b, r)
  have hp := hG.isProbabilityMeasure
  have hlaw := h.noise_law a b r
  have hx : (fun ω => |X ω a b r| ^ q) = fun ω => |e ω a b r| ^ q * Real.exp (q * v ω a b r) := by
    funext ω
    rw [h.field, abs_mul, Real.abs_exp, Real.mul_rpow (abs_nonneg _) (Real.exp_pos _).le, ← Real.exp_mul, mul_comm q]
  have hi : IndepFun (fun ω => |e ω a b r| ^ q) (fun ω => Real.exp (q * v ω a b r)) μ :=
    h.indep (f := fun w => |w (a, b, r)| ^ q) (f' := fun w => Real.exp (q * w (a, b, r))) (by fun_prop) (by fun_prop)
  have hie : Integrable (fun ω => |e ω a b r| ^ q) μ := by
    have := (hG.memLp (p := ENNReal.ofReal q) ENNReal.ofReal_ne_top).integrable_norm_rpow'
    simpa [ENNReal.toReal_ofReal hq] using this
  obtain ⟨k1, k2⟩ := h.exp_vol q a b r
  rw [hx]
  refine ⟨hi.integrable_mul hie k1, ?_⟩
  rw [hi.integral_fun_mul_eq_mul_integral hie.1 k1.1, k2, ← hlaw, integral_map hG.aemeasurable (by fun_prop)]

/-- **C84**, flatness, and a consequence users should know: it tends to 3, that of a normal variable, when the size of the image
increases, for every intermittency `lam` and integral scale `L` (fixed, or growing slower than `exp(N)`). -/
theorem C84_flatness (h : Mrw2dLaw μ lam L X e v) (a b : Fin N) (r : Fin R) :
    ∫ ω, X ω a b r ^ 4 ∂μ = 3 * Real.exp (4 * fieldCovariance N lam L a b a b) * (∫ ω, X ω a b r ^ 2 ∂μ) ^ 2 ∧
    ∫ ω, X ω a b r ^ 4 ∂μ ≤ 3 * Real.exp (4 * (lam ^ 2 * Real.log (max L 1)) / N) * (∫ ω, X ω a b r ^ 2 ∂μ) ^ 2 := by
  have h1 : ∫ ω, X ω a b r ^ 4 ∂μ = 3 * Real.exp (4 * fieldCovariance N lam L a b a b) * (∫ ω, X ω a b r ^ 2 ∂μ) ^ 2 := by
    have h2 := (C84_covariance h (a, b, r) (a, b, r)).2.2.2
    rw [if_pos rfl] at h2
    simp only [] at h2
    have h4 := (C84_moments h a b r (q := 4) (by norm_num)).2
    have ep : ∀ y : ℝ, |y| ^ (4:ℝ) = y ^ 4 := by
      intro y
      rw [show (4:ℝ) = ((4:ℕ):ℝ) by norm_num, Real.rpow_natCast, Even.pow_abs (by decide)]
    simp_rw [ep] at h4
    simp_rw [sq (X _ a b r)]
    rw [h4, h2, ← Real.exp_nat_mul, gaussian_fourth, NNReal.coe_one, mul_assoc (3:ℝ) (Real.exp _), ← Real.exp_add, one_pow, mul_one]
    congr 2
    push_cast
    ring
  refine ⟨h1, ?_⟩
  rw [h1]
  have := (C84_vanishing (lam := lam) (L := L) a b a b).2.1
  have e : 4 * (lam ^ 2 * Real.log (max L 1)) / N = 4 * (lam ^ 2 * Real.log (max L 1) / N) := by ring
  rw [e]
  gcongr

/-! ### The integrated field -/

/-- Kernel of the fractional integration. -/
def fractKernel (N : ℕ) (alpha : ℝ) (a b a' b' : Fin N) : ℂ :=
  (∑ k : Fin N, ∑ l : Fin N, ((radial N k l ^ (-alpha) : ℝ) : ℂ) * (ee N ((k : ℤ) * ((a : ℤ) - a')) * ee N ((l : ℤ) * ((b : ℤ) - b')))) / (N : ℂ) ^ 2

theorem kernel_conj (alpha : ℝ) (a b a' b' : Fin N) : (starRingEnd ℂ) (fractKernel N alpha a b a' b') = fractKernel N alpha a b a' b' := by
  unfold fractKernel
  rw [map_div₀, map_pow, Complex.conj_natCast, map_sum, ← Equiv.sum_comp (negEquiv N)]
  congr 1
  refine sum_congr rfl fun k _ => ?_
  rw [map_sum, ← Equiv.sum_comp (negEquiv N)]
  refine sum_congr rfl fun l _ => ?_
  rw [map_mul, map_mul, Complex.conj_ofReal, ee_conj, ee_conj]
  show ((radial N (negIdx k) (negIdx l) ^ (-alpha) : ℝ) : ℂ) * (ee N (-(((negIdx k : ℕ) : ℤ) * _)) * ee N (-(((negIdx l : ℕ) : ℤ) * _))) = _
  rw [radial_neg, ← mul_neg, ← mul_neg, ee_negIdx, ee_negIdx, mul_neg, mul_neg, neg_neg, neg_neg]

theorem sum4_comm (f : Fin N → Fin N → Fin N → Fin N → ℂ) : ∑ a, ∑ b, ∑ k, ∑ l, f a b k l = ∑ k, ∑ l, ∑ a, ∑ b, f a b k l := by
  have := Finset.sum_comm (s := (univ : Finset (Fin N × Fin N))) (t := (univ : Finset (Fin N × Fin N)))
    (f := fun p q => f p.1 p.2 q.1 q.2)
  simpa only [Fintype.sum_prod_type] using this

theorem fract_kernel (hE : Even N) {x y : Sq N R ℝ} {alpha : ℝ} (hy : fractInt2d x alpha = .ok y) (a b : Fin N) (r : Fin R) :
    y a b r = ∑ a' : Fin N, ∑ b' : Fin N, (fractKernel N alpha a b a' b').re * x a' b' r := by
  have hN : (N : ℂ) ≠ 0 := by have := a.isLt; exact_mod_cast (by omega : N ≠ 0)
  have h := spectrum_inv (fun a b => y a b r) a b
  simp_rw [fract_spec hE hy, spectrum2_ee] at h
  have h1 : (y a b r : ℂ) = ∑ a' : Fin N, ∑ b' : Fin N, fractKernel N alpha a b a' b' * (x a' b' r : ℂ) := by
    have h2 : ∑ a' : Fin N, ∑ b' : Fin N, fractKernel N alpha a b a' b' * (x a' b' r : ℂ) = (∑ k : Fin N, ∑ l : Fin N,
        (∑ a' : Fin N, ∑ b' : Fin N, (x a' b' r : ℂ) * (ee N (-((k : ℤ) * a')) * ee N (-((l : ℤ) * b')))) / ((radial N k l ^ alpha : ℝ) : ℂ) *
        (ee N ((k : ℤ) * a) * ee N ((l : ℤ) * b))) / (N : ℂ) ^ 2 := by
      unfold fractKernel
      simp_rw [div_mul_eq_mul_div, ← sum_div]
      congr 1
      simp_rw [sum_mul, sum_div]
      rw [sum4_comm]
      refine sum_congr rfl fun p _ => sum_congr rfl fun q _ => sum_congr rfl fun _ _ => sum_congr rfl fun _ _ => ?_
      rw [Real.rpow_neg (radial_pos _ _).le, mul_sub, mul_sub, sub_eq_add_neg, sub_eq_add_neg, ee_add, ee_add]
      push_cast
      ring
    rw [h2, h]
    field_simp
  have h3 := congrArg Complex.re h1
  rw [Complex.ofReal_re, Complex.re_sum] at h3
  rw [h3]
  refine sum_congr rfl fun a' _ => ?_
  rw [Complex.re_sum]
  refine sum_congr rfl fun b' _ => ?_
  rw [Complex.re_mul_ofReal]

theorem kernel_inner (alpha : ℝ) (a b a' b' : Fin N) :
    ∑ c : Fin N, ∑ d : Fin N, (fractKernel N alpha a b c d).re * (fractKernel N alpha a' b' c d).re =
      (∑ k : Fin N, ∑ l : Fin N, radial N k l ^ (-(2 * alpha)) *
        Real.cos (2 * Real.pi * ((k : ℝ) * ((a : ℝ) - a') + (l : ℝ) * ((b : ℝ) - b')) / N)) / (N : ℝ) ^ 2 := by
  have hN : (N : ℂ) ≠ 0 := by have := a.isLt; exact_mod_cast (by omega : N ≠ 0)
  have hre : ∀ a b c d : Fin N, ((fractKernel N alpha a b c d).re : ℂ) = fractKernel N alpha a b c d := fun a b c d =>
    Complex.conj_eq_iff_re.1 (kernel_conj alpha a b c d)
  have h1 : ∑ c : Fin N, ∑ d : Fin N, fractKernel N alpha a b c d * (starRingEnd ℂ) (fractKernel N alpha a' b' c d) =
      (∑ k : Fin N, ∑ l : Fin N, ((radial N k l ^ (-(2 * alpha)) : ℝ) : ℂ) *
        (ee N ((k : ℤ) * ((a : ℤ) - a')) * ee N ((l : ℤ) * ((b : ℤ) - b')))) / (N : ℂ) ^ 2 := by
    have h2 : ∀ c d : Fin N, fractKernel N alpha a b c d * (starRingEnd ℂ) (fractKernel N alpha a' b' c d) =
        (∑ p : Fin N × Fin N, ∑ q : Fin N × Fin N, ((radial N p.1 p.2 ^ (-alpha) : ℝ) : ℂ) * ((radial N q.1 q.2 ^ (-alpha) : ℝ) : ℂ) *
          (ee N ((p.1 : ℤ) * a - (q.1 : ℤ) * a') * ee N ((p.2 : ℤ) * b - (q.2 : ℤ) * b')) *
          (ee N ((c : ℤ) * ((q.1 : ℤ) - p.1)) * ee N ((d : ℤ) * ((q.2 : ℤ) - p.2)))) / (N : ℂ) ^ 4 := by
      intro c d
      unfold fractKernel
      rw [← Fintype.sum_prod_type', ← Fintype.sum_prod_type', map_div₀, map_pow, Complex.conj_natCast, map_sum, div_mul_div_comm, sum_mul_sum]
      congr 1
      · refine sum_congr rfl fun p _ => sum_congr rfl fun q _ => ?_
        rw [map_mul, map_mul, Complex.conj_ofReal, ee_conj, ee_conj]
        have e : ∀ P Q A A' C : ℤ, ee N (P * A - Q * A') * ee N (C * (Q - P)) = ee N (P * (A - C)) * ee N (-(Q * (A' - C))) := by
          intro P Q A A' C; rw [← ee_add, ← ee_add]; congr 1; ring
        have e1 := e p.1 q.1 a a' c
        have e2 := e p.2 q.2 b b' d
        linear_combination (-((radial N p.1 p.2 ^ (-alpha) : ℝ) : ℂ) * ((radial N q.1 q.2 ^ (-alpha) : ℝ) : ℂ)) *
          (ee N ((p.2 : ℤ) * b - (q.2 : ℤ) * b') * ee N ((d : ℤ) * ((q.2 : ℤ) - p.2)) * e1 +
            ee N ((p.1 : ℤ) * ((a : ℤ) - c)) * ee N (-((q.1 : ℤ) * ((a' : ℤ) - c))) * e2)
      · ring
    simp_rw [h2, ← sum_div]
    rw [← Fintype.sum_prod_type', sum_comm]
    have h3 : ∀ p : Fin N × Fin N, ∑ s : Fin N × Fin N, ∑ q : Fin N × Fin N,
        ((radial N p.1 p.2 ^ (-alpha) : ℝ) : ℂ) * ((radial N q.1 q.2 ^ (-alpha) : ℝ) : ℂ) *
          (ee N ((p.1 : ℤ) * a - (q.1 : ℤ) * a') * ee N ((p.2 : ℤ) * b - (q.2 : ℤ) * b')) *
          (ee N ((s.1 : ℤ) * ((q.1 : ℤ) - p.1)) * ee N ((s.2 : ℤ) * ((q.2 : ℤ) - p.2))) =
        (N : ℂ) ^ 2 * (((radial N p.1 p.2 ^ (-(2 * alpha)) : ℝ) : ℂ) *
        (ee N ((p.1 : ℤ) * ((a : ℤ) - a')) * ee N ((p.2 : ℤ) * ((b : ℤ) - b')))) := by
      intro p
      rw [sum_comm]
      simp_rw [← mul_sum]
      have h4 : ∀ q : Fin N × Fin N, ∑ s : Fin N × Fin N, (ee N ((s.1 : ℤ) * ((q.1 : ℤ) - p.1)) * ee N ((s.2 : ℤ) * ((q.2 : ℤ) - p.2))) =
          if q = p then (N : ℂ) ^ 2 else 0 := by
        intro q
        rw [Fintype.sum_prod_type]
        simp_rw [← mul_sum, ee_sum_fin]
        rw [← sum_mul, ee_sum_fin]
        by_cases h : q = p
        · subst h; simp; ring
        · rw [if_neg h]
          by_cases h' : q.1 = p.1
          · rw [if_neg fun h'' => h (Prod.ext h' h''), mul_zero]
          · rw [if_neg h', zero_mul]
      simp_rw [h4, mul_ite, mul_zero, sum_ite_eq' univ p, mem_univ, if_true]
      rw [show -(2 * alpha) = -alpha + -alpha by ring, Real.rpow_add (radial_pos _ _), mul_sub, mul_sub]
      push_cast
      ring
    simp_rw [h3]
    rw [← mul_sum, Fintype.sum_prod_type]
    field_simp
  have h5 := congrArg Complex.re h1
  have e1 : ∑ c : Fin N, ∑ d : Fin N, fractKernel N alpha a b c d * (starRingEnd ℂ) (fractKernel N alpha a' b' c d) =
      ((∑ c : Fin N, ∑ d : Fin N, (fractKernel N alpha a b c d).re * (fractKernel N alpha a' b' c d).re : ℝ) : ℂ) := by
    push_cast
    simp_rw [hre, kernel_conj]
  rw [e1, Complex.ofReal_re] at h5
  rw [h5, show (N : ℂ) ^ 2 = (((N : ℝ) ^ 2 : ℝ) : ℂ) by push_cast; rfl, Complex.div_ofReal_re, Complex.re_sum]
  congr 1
  refine sum_congr rfl fun k _ => ?_
  rw [Complex.re_sum]
  refine sum_congr rfl fun l _ => ?_
  rw [Complex.re_ofReal_mul, cos_ee]

/-- **C84**, the integrated field: it is centred, realisations are uncorrelated, and its covariance is stationary on the torus, with the
isotropic power-law spectrum `exp(2 V) |frequency|^(-2 (H + 1))`: that of a fractional Brownian field of Hurst exponent `H`. -/
theorem C84_integrated (hE : Even N) {H : ℝ} {BX : Ω → Sq N R ℝ} (h : Mrw2dLaw μ lam L X e v)
    (hBX : ∀ ω, fractInt2d (X ω) (H + 1) = .ok (BX ω)) (a b a' b' : Fin N) (r r' : Fin R) :
    ∫ ω, BX ω a b r ∂μ = 0 ∧
    ∫ ω, BX ω a b r * BX ω a' b' r' ∂μ = if r = r' then Real.exp (2 * fieldCovariance N lam L a b a b) *
      ((∑ k : Fin N, ∑ l : Fin N, radial N k l ^ (-(2 * (H + 1))) *
        Real.cos (2 * Real.pi * ((k : ℝ) * ((a : ℝ) - a') + (l : ℝ) * ((b : ℝ) - b')) / N)) / (N : ℝ) ^ 2) else 0 := by
  have hk : ∀ a b r ω, BX ω a b r = ∑ p : Fin N × Fin N, (fractKernel N (H + 1) a b p.1 p.2).re * X ω p.1 p.2 r := fun a b r ω => by
    rw [fract_kernel hE (hBX ω), Fintype.sum_prod_type]
  have hX := fun (p q : Fin N × Fin N) (r r' : Fin R) => C84_covariance h (p.1, p.2, r) (q.1, q.2, r')
  constructor
  · simp_rw [hk]
    rw [integral_finsetSum _ fun p _ => ((hX p p r r).1).const_mul _]
    refine sum_eq_zero fun p _ => ?_
    rw [integral_const_mul, (hX p p r r).2.1, mul_zero]
  · simp_rw [hk, sum_mul_sum]
    have hi : ∀ p q : Fin N × Fin N, Integrable (fun ω => (fractKernel N (H + 1) a b p.1 p.2).re * X ω p.1 p.2 r *
        ((fractKernel N (H + 1) a' b' q.1 q.2).re * X ω q.1 q.2 r')) μ := by
      intro p q
      have := ((hX p q r r').2.2.1).const_mul ((fractKernel N (H + 1) a b p.1 p.2).re * (fractKernel N (H + 1) a' b' q.1 q.2).re)
      refine this.congr (Filter.Eventually.of_forall fun ω => ?_)
      simp only []
      ring
    rw [integral_finsetSum _ fun p _ => integrable_finsetSum _ fun q _ => hi p q]
    simp_rw [integral_finsetSum _ fun q _ => hi _ q]
    have h1 : ∀ p q : Fin N × Fin N, ∫ ω, (fractKernel N (H + 1) a b p.1 p.2).re * X ω p.1 p.2 r *
        ((fractKernel N (H + 1) a' b' q.1 q.2).re * X ω q.1 q.2 r') ∂μ =
        if p = q then (if r = r' then Real.exp (2 * fieldCovariance N lam L a b a b) *
          ((fractKernel N (H + 1) a b p.1 p.2).re * (fractKernel N (H + 1) a' b' p.1 p.2).re) else 0) else 0 := by
      intro p q
      have e1 : ∀ ω, (fractKernel N (H + 1) a b p.1 p.2).re * X ω p.1 p.2 r * ((fractKernel N (H + 1) a' b' q.1 q.2).re * X ω q.1 q.2 r') =
          ((fractKernel N (H + 1) a b p.1 p.2).re * (fractKernel N (H + 1) a' b' q.1 q.2).re) * (X ω p.1 p.2 r * X ω q.1 q.2 r') :=
        fun ω => by ring
      simp_rw [e1]
      rw [integral_const_mul]
      have := (hX p q r r').2.2.2
      simp only [] at this
      rw [this]
      by_cases hpq : p = q
      · subst hpq
        by_cases hr : r = r'
        · subst hr
          rw [if_pos rfl, if_pos rfl, if_pos rfl, field_diag, field_diag]
          ring
        · rw [if_neg (by simp [hr]), if_pos rfl, if_neg hr, mul_zero]
      · rw [if_neg hpq, if_neg, mul_zero]
        intro h'
        apply hpq
        simp only [Prod.mk.injEq] at h'
        exact Prod.ext h'.1 h'.2.1
    simp_rw [h1, sum_ite_eq, mem_univ, if_true]
    by_cases hr : r = r'
    · simp only [hr, if_true]
      rw [← mul_sum, ← kernel_inner, Fintype.sum_prod_type]
    · simp [hr]

/-! ### Concrete cases -/

/-- The hypothesis of `C84_scaled` on a 4 x 4 image: with `L = 2` the intended covariance is `log 2` at the origin, zero elsewhere. -/
example : ∀ k l, 0 ≤ (spectrum2 (torusCovariance 4 1 2) k l).re := by
  have h : ∀ a b : Fin 4, torusCovariance 4 1 2 a b = if a = 0 ∧ b = 0 then Real.log 2 else 0 := by
    intro a b
    by_cases hz : a = 0 ∧ b = 0
    · rw [if_pos hz, hz.1, hz.2, torus_zero]; norm_num
    · rw [if_neg hz]
      unfold torusCovariance
      have h1 := radial_ge_one a b
      unfold radial at h1
      rw [if_neg] at h1
      · rw [max_eq_right, Real.log_one, mul_zero]
        rw [div_le_one (by linarith)]
        linarith
      · intro hf
        apply hz
        have hc : ∀ c : Fin 4, freq 4 c = 0 → c = 0 := by decide
        exact ⟨hc _ hf.1, hc _ hf.2⟩
  intro k l
  have h2 : spectrum2 (torusCovariance 4 1 2) k l = ((Real.log 2 : ℝ) : ℂ) := by
    unfold spectrum2
    rw [sum_eq_single 0 (fun a _ ha => sum_eq_zero fun b _ => by rw [h, if_neg (fun h => ha h.1)]; simp) (by simp),
      sum_eq_single 0 (fun b _ hb => by rw [h, if_neg (fun h => hb h.2)]; simp) (by simp), h, if_pos ⟨rfl, rfl⟩]
    simp
  rw [h2, Complex.ofReal_re]
  exact Real.log_nonneg (by norm_num)

/-- A call with the default parameters meets all the hypotheses of C84. -/
example : ∃ (Ω : Type) (_ : MeasurableSpace Ω) (μ : Measure Ω) (g : Ω → ℕ → ℝ) (X BX e v : Ω → Sq (evenSize 511) 3 ℝ), StdNormal μ g ∧
    (∀ ω, ∃ s, mrw2D 511 3 (4 / 5) (1 / 10) 512 1 (g ω) = .ok s ∧ s.X = X ω ∧ s.BX = BX ω) ∧
    Mrw2dLaw μ (1 / 10) 512 X e v ∧ ∀ ω, fractInt2d (X ω) (4 / 5 + 1) = .ok (BX ω) := by
  obtain ⟨Ω, m, μ, g, h⟩ := exists_stdNormal
  obtain ⟨-, X, BX, e, v, h1, h2, h3⟩ := C84_law (N := 511) (R := 3) (by norm_num) (4 / 5) (1 / 10) 512 1 h
  exact ⟨Ω, m, μ, g, X, BX, e, v, h, h1, h2, h3⟩

/-- **C84**, arguments: `sigma` has no effect, and no sample means ValueError. -/
theorem C84_args (H lam L sigma sigma' : ℝ) (g : Rng) :
    mrw2D N R H lam L sigma g = mrw2D N R H lam L sigma' g ∧ mrw2D 0 R H lam L sigma g = .error .valueError :=
  ⟨rfl, by unfold mrw2D; rw [if_pos (by decide)]⟩

end

end MFA
