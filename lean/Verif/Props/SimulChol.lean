import Verif.Props.SimulMrw
import Verif.Lemmas.ToeplitzPos

/-!
# C71: synthesis by the Cholesky factor
-/

namespace MFA

open Classical Finset MeasureTheory Matrix

noncomputable section

variable {R : ℕ} {Ω : Type*} [MeasurableSpace Ω] {μ : Measure Ω} {g : Ω → ℕ → ℝ}

/-- A matrix as a function of two natural numbers. -/
def entries {N : ℕ} (A : Matrix (Fin N) (Fin N) ℝ) (n m : ℕ) : ℝ := if h : n < N ∧ m < N then A ⟨n, h.1⟩ ⟨m, h.2⟩ else 0

theorem spCholesky_ok {n : ℕ} {A : Matrix (Fin n) (Fin n) ℝ} (hA : A.PosDef) :
    ∃ U, spCholesky A = .ok U ∧ IsUpperCholesky U A := by
  have h := exists_cholesky hA
  exact ⟨h.choose, by rw [spCholesky, dif_pos h], h.choose_spec⟩

theorem spCholesky_error {n : ℕ} {A : Matrix (Fin n) (Fin n) ℝ} (hA : ¬ A.PosDef) : spCholesky A = .error .linAlgError := by
  rw [spCholesky, dif_neg (fun h => hA ((cholesky_iff A).mp h))]

theorem gaussianChol_ok {cov : List ℝ} (hne : cov ≠ []) (hA : (toeplitz cov).PosDef) :
    ∃ U, IsUpperCholesky U (toeplitz cov) ∧ ∀ g : Rng, gaussianChol (R := R) cov cov.length none g = .ok
      { x := List.ofFn fun (i : Fin cov.length) (r : Fin R) => ∑ j : Fin cov.length, U i j * g ((j : ℕ) * R + r)
        warned := false, rng := g.skip (cov.length * R) } := by
  obtain ⟨U, hU, hchol⟩ := spCholesky_ok hA
  refine ⟨U, hchol, fun g => ?_⟩
  unfold gaussianChol
  rw [if_neg (by simp [hne]), hU]
  simp only []
  rw [if_neg (by simp [randn_length])]
  congr 2
  congr 1
  funext i r
  refine sum_congr rfl fun j _ => ?_
  rw [randn_getD R _ g j j.isLt r]

/-- **C71**: `gaussian_chol` returns exactly when the requested covariance matrix is positive definite; otherwise scipy raises
LinAlgError. -/
theorem C71_returns_iff (cov : List ℝ) (hne : cov ≠ []) (g : Rng) :
    ((∃ s, gaussianChol (R := R) cov cov.length none g = .ok s) ↔ (toeplitz cov).PosDef) ∧
    (¬ (toeplitz cov).PosDef → gaussianChol (R := R) cov cov.length none g = .error .linAlgError) := by
  have herr : ¬ (toeplitz cov).PosDef → gaussianChol (R := R) cov cov.length none g = .error .linAlgError := by
    intro hA
    unfold gaussianChol
    rw [if_neg (by simp [hne]), spCholesky_error hA]
  refine ⟨⟨?_, ?_⟩, herr⟩
  · rintro ⟨s, hs⟩
    by_contra hA
    rw [herr hA] at hs; cases hs
  · intro hA
    obtain ⟨U, -, hU⟩ := gaussianChol_ok (R := R) hne hA
    exact ⟨_, hU g⟩

/-- **C71**: the samples are centred, and their covariance matrix is `U Uᵀ` where `Uᵀ U` is the requested one. -/
theorem C71_covariance (cov : List ℝ) (hne : cov ≠ []) (hA : (toeplitz cov).PosDef) (hg : WhiteNoise μ g) :
    ∃ U, IsUpperCholesky U (toeplitz cov) ∧ ∃ x : Ω → RArr R, Returns (gaussianChol cov cov.length none) g x ∧
      HasCovariance μ cov.length x (entries (U * Uᵀ)) := by
  obtain ⟨U, hchol, hU⟩ := gaussianChol_ok (R := R) hne hA
  refine ⟨U, hchol, fun ω => List.ofFn fun (i : Fin cov.length) (r : Fin R) => ∑ j : Fin cov.length, U i j * g ω ((j : ℕ) * R + r),
    fun ω => ⟨_, hU (g ω), rfl⟩, ?_⟩
  have hget : ∀ n (hn : n < cov.length), ∀ r ω, ((List.ofFn fun (i : Fin cov.length) (r : Fin R) =>
      ∑ j : Fin cov.length, U i j * g ω ((j : ℕ) * R + r)).getD n fun _ => 0) r
      = ∑ j : Fin cov.length, U ⟨n, hn⟩ j * g ω ((j : ℕ) * R + r) := by
    intro n hn r ω
    rw [List.getD_eq_getElem?_getD, List.getElem?_eq_getElem (by simpa using hn)]
    simp
  refine ⟨fun ω => by simp, ?_, ?_, ?_, ?_⟩
  · intro n hn r
    simp_rw [hget n hn r]
    exact hg.integrable_lin _ _ _
  · intro n hn r
    simp_rw [hget n hn r]
    exact hg.mean_lin _ _ _
  · intro n hn m hm r r'
    simp_rw [hget n hn r, hget m hm r']
    exact hg.integrable_mul_lin _ _ _ _ _ _
  · intro n hn m hm r r'
    simp_rw [hget n hn r, hget m hm r']
    rw [hg.cov_lin, entries, dif_pos ⟨hn, hm⟩, Matrix.mul_apply]
    by_cases hr : r = r'
    · subst hr
      rw [if_pos rfl]
      refine sum_congr rfl fun i _ => ?_
      rw [sum_eq_single i]
      · simp
      · intro j _ hji
        rw [if_neg, mul_zero]
        rw [flat_pos_inj]
        rintro ⟨h, -⟩
        exact hji (Fin.ext h.symm)
      · simp
    · rw [if_neg hr]
      refine sum_eq_zero fun i _ => sum_eq_zero fun j _ => ?_
      rw [if_neg, mul_zero]
      rw [flat_pos_inj]
      exact fun h => hr h.2

theorem chol_swap_iff {N : ℕ} (cov : List ℝ) (hN : cov.length = N + 1) {U : Matrix (Fin cov.length) (Fin cov.length) ℝ}
    (hU : IsUpperCholesky U (toeplitz cov)) :
    U * Uᵀ = toeplitz cov ↔ ∀ k, 1 ≤ k → k < cov.length → cov.getD k 0 = 0 := by
  set z : Fin cov.length := ⟨0, by omega⟩ with hz
  have hcol : ∀ i, i ≠ z → U i z = 0 := fun i hi => hU.upper i z (by
    rw [Fin.lt_def]; have : (i : ℕ) ≠ 0 := fun h => hi (Fin.ext h)
    simp [hz]; omega)
  have hrow : ∀ j, toeplitz cov z j = U z z * U z j := by
    intro j
    rw [← hU.mul, Matrix.mul_apply, sum_eq_single z]
    · rw [transpose_apply]
    · intro i _ hi; rw [transpose_apply, hcol i hi, zero_mul]
    · simp
  constructor
  · intro h k hk1 hk
    have h00 : ∑ j, U z j * U z j = U z z * U z z := by
      have h1 := congrFun (congrFun h z) z
      rw [Matrix.mul_apply, hrow z] at h1
      simpa using h1
    have hsplit := sum_erase_add (s := univ) (f := fun j => U z j * U z j) (mem_univ z)
    have h0 : ∑ j ∈ univ.erase z, U z j * U z j = 0 := by linarith
    have hj := (sum_eq_zero_iff_of_nonneg fun j _ => mul_self_nonneg (U z j)).mp h0 ⟨k, hk⟩
      (mem_erase.mpr ⟨by intro hc; have := congrArg Fin.val hc; simp [hz] at this; omega, mem_univ _⟩)
    have hT := hrow ⟨k, hk⟩
    rw [mul_self_eq_zero.mp hj, mul_zero, toeplitz] at hT
    simpa [hz] using hT
  · intro h
    have hT : toeplitz cov = (cov.getD 0 0) • (1 : Matrix (Fin cov.length) (Fin cov.length) ℝ) := by
      ext i j
      rw [toeplitz, Matrix.smul_apply, Matrix.one_apply]
      by_cases hij : i = j
      · subst hij; simp
      · rw [if_neg hij, smul_zero]
        refine h _ ?_ ?_
        · have : (i : ℕ) ≠ j := fun hc => hij (Fin.ext hc)
          omega
        · have := i.isLt; have := j.isLt; omega
    have hc0 : cov.getD 0 0 ≠ 0 := by
      have h1 := hrow z
      rw [hT] at h1
      simp only [Matrix.smul_apply, Matrix.one_apply_eq, smul_eq_mul, mul_one] at h1
      rw [h1]
      exact mul_ne_zero (hU.diag z).ne' (hU.diag z).ne'
    have hmul := hU.mul
    rw [hT] at hmul ⊢
    have h1 : ((cov.getD 0 0)⁻¹ • Uᵀ) * U = 1 := by
      rw [Matrix.smul_mul, hmul, smul_smul, inv_mul_cancel₀ hc0, one_smul]
    have h2 := mul_eq_one_comm.mp h1
    rw [Matrix.mul_smul] at h2
    rw [← h2, smul_smul, mul_inv_cancel₀ hc0, one_smul]

/-- **C71**.  The samples of `gaussian_chol` have the requested covariance only when it is that of uncorrelated samples: for
every other positive definite autocovariance the result is wrong. -/
theorem C71_exact_iff_uncorrelated (cov : List ℝ) (hne : cov ≠ []) (hA : (toeplitz cov).PosDef) (hg : WhiteNoise μ g) (hR : R ≠ 0) :
    ∃ x : Ω → RArr R, Returns (gaussianChol cov cov.length none) g x ∧
      (HasCovariance μ cov.length x (fun n m => cov.getD (Int.natAbs ((n : ℤ) - m)) 0)
        ↔ ∀ k, 1 ≤ k → k < cov.length → cov.getD k 0 = 0) := by
  obtain ⟨U, hU, x, hx, hc⟩ := C71_covariance (R := R) cov hne hA hg
  refine ⟨x, hx, ?_⟩
  have hl : 0 < cov.length := List.length_pos_iff.mpr hne
  rw [← chol_swap_iff (N := cov.length - 1) cov (by omega) hU]
  have r0 : Fin R := ⟨0, Nat.pos_of_ne_zero hR⟩
  constructor
  · intro h
    ext i j
    have h1 := h.cov i i.isLt j j.isLt r0 r0
    rw [hc.cov i i.isLt j j.isLt r0 r0, if_pos rfl, if_pos rfl, entries, dif_pos ⟨i.isLt, j.isLt⟩] at h1
    exact h1
  · intro h
    refine ⟨hc.length, hc.integrable1, hc.mean, hc.integrable, ?_⟩
    intro n hn m hm r r'
    rw [hc.cov n hn m hm r r', entries, dif_pos ⟨hn, hm⟩, h]
    rfl

/-! ### Fractional Gaussian noise and the log-volatility -/

theorem fgn_posDef {H sigma d : ℝ} (h0 : 0 < H) (h1 : H < 1) (hs : sigma ≠ 0) (hd : 0 < d) {N : ℕ} (hN : 2 ≤ N) :
    (toeplitz ((List.range N).map (fgnCov H sigma d))).PosDef := by
  refine toeplitz_posDef _ (by simpa using hN) fun k hk => ?_
  rw [List.length_map, List.length_range] at hk
  have : (fgnCov H sigma d) = fun i => d ^ (2 * H) * sigma ^ 2 / 2 * fd (2 * H) i := funext fun i => fgnCov_eq H sigma d i
  rw [this, cosSpectrum_mul]
  exact mul_pos (by positivity) (fd_spectrum_pos (by linarith) (by linarith) hN k hk)

theorem fgn_chol_eq {N : ℕ} {H sigma : ℝ} {dt : Option ℝ} (z0 : Option (CArr R)) (h0 : 0 ≤ H) (h1 : H ≤ 1) (hN : N ≠ 0)
    (hdt : ∀ d, dt = some d → 0 ≤ d) (g : Rng) :
    fgn R N H sigma dt "chol" z0 g = gaussianChol ((List.range N).map (fgnCov H sigma (effStep dt N))) N z0 g := by
  unfold fgn
  rw [if_neg (by simp [h0, h1]), (fgnDt_eq hN hdt).1]
  simp

/-- **C71** for `fgn(method='chol')`: for `0 < H < 1` it always returns, and its samples have the covariance of fractional
Gaussian noise if and only if `H = 1/2`. -/
theorem C71_fgn {N : ℕ} {H sigma : ℝ} {dt : Option ℝ} (h0 : 0 < H) (h1 : H < 1) (hs : sigma ≠ 0) (hN : 2 ≤ N)
    (hdt : ∀ d, dt = some d → 0 ≤ d) (hR : R ≠ 0) (hg : WhiteNoise μ g) :
    ∃ x : Ω → RArr R, Returns (fgn R N H sigma dt "chol" none) g x ∧
      (HasCovariance μ N x (fun n m => fgnCovariance H sigma (effStep dt N) (n * effStep dt N) (m * effStep dt N))
        ↔ H = 1 / 2) := by
  have hN0 : N ≠ 0 := by omega
  have hpos := (fgnDt_eq hN0 hdt).2
  set cov := (List.range N).map (fgnCov H sigma (effStep dt N)) with hcov
  have hlen : cov.length = N := by simp [hcov]
  have heq : fgn R N H sigma dt "chol" none = gaussianChol cov cov.length none := by
    funext g; rw [fgn_chol_eq none h0.le h1.le hN0 hdt g, hlen]
  have hA := fgn_posDef h0 h1 hs hpos hN
  rw [← hcov] at hA
  obtain ⟨x, hx, hiff⟩ := C71_exact_iff_uncorrelated (R := R) cov (by intro hc; rw [hc] at hlen; simp at hlen; omega) hA hg hR
  rw [heq]
  refine ⟨x, hx, ?_⟩
  have hget : ∀ k < N, cov.getD k 0 = fgnCov H sigma (effStep dt N) k := fun k hk => by rw [hcov, range_map_getD _ _ _ _ hk]
  have hcongr : HasCovariance μ N x (fun n m => fgnCovariance H sigma (effStep dt N) (n * effStep dt N) (m * effStep dt N))
      ↔ HasCovariance μ cov.length x (fun n m => cov.getD (Int.natAbs ((n : ℤ) - m)) 0) := by
    rw [hlen]
    constructor <;> intro h <;> refine ⟨h.length, h.integrable1, h.mean, h.integrable, ?_⟩ <;> intro n hn m hm r r' <;>
      rw [h.cov n hn m hm r r', hget _ (by omega), fgnCov_spec hpos]
  rw [hcongr, hiff]
  constructor
  · intro h
    have h2 := h 1 le_rfl (by omega)
    rw [hget 1 (by omega), fgnCov_eq, show fd (2 * H) 1 = _ from fd_succ (2 * H) 0] at h2
    have hz0 : (0:ℝ) ^ (2 * H) = 0 := Real.zero_rpow (by linarith)
    push_cast at h2
    rw [hz0] at h2
    norm_num at h2
    have hne : effStep dt N ^ (2 * H) * sigma ^ 2 / 2 ≠ 0 := by positivity
    have h3 : (2:ℝ) ^ (2 * H) = 2 ^ (1:ℝ) := by
      rw [Real.rpow_one]; 
      rcases h2 with h2 | h2
      · exact absurd h2 (by simpa using hne)
      · linarith
    have h4 := (Real.rpow_right_inj (by norm_num) (by norm_num)).mp h3
    linarith
  · rintro rfl k hk1 hk
    rw [hget k (by omega), fgnCov_half, if_neg (by omega)]

/-- **C71**: for `H = 0`, `H = 1` or `sigma = 0` the requested matrix is singular and `fgn(method='chol')` raises LinAlgError
(in exact arithmetic). -/
theorem C71_fgn_singular {N : ℕ} {H sigma : ℝ} {dt : Option ℝ} (h : H = 0 ∨ H = 1 ∨ sigma = 0) (h0 : 0 ≤ H) (h1 : H ≤ 1) (hN : 2 ≤ N)
    (hdt : ∀ d, dt = some d → 0 ≤ d) (g : Rng) :
    fgn R N H sigma dt "chol" none g = .error .linAlgError := by
  have hN0 : N ≠ 0 := by omega
  set cov := (List.range N).map (fgnCov H sigma (effStep dt N)) with hcov
  have hlen : cov.length = N := by simp [hcov]
  have hget : ∀ k < N, cov.getD k 0 = fgnCov H sigma (effStep dt N) k := fun k hk => by rw [hcov, range_map_getD _ _ _ _ hk]
  have hne : cov ≠ [] := by intro hc; rw [hc] at hlen; simp at hlen; omega
  have h01 : cov.getD 0 0 = cov.getD 1 0 := by
    rw [hget 0 (by omega), hget 1 (by omega)]
    rcases h with rfl | rfl | rfl
    · rw [fgnCov_H_zero, fgnCov_H_zero]
    · rw [fgnCov_eq, fgnCov_eq]; unfold fd; norm_num
    · rw [fgnCov_eq, fgnCov_eq]; norm_num
  have hA : ¬ (toeplitz cov).PosDef := by
    intro hA
    have := hA.dotProduct_mulVec_pos (x := Pi.single (⟨0, by omega⟩ : Fin cov.length) 1 - Pi.single (⟨1, by omega⟩ : Fin cov.length) 1) (by
      intro hc
      have h2 := congrFun hc ⟨0, by omega⟩
      rw [Pi.sub_apply, Pi.single_eq_same, Pi.single_eq_of_ne (by simp)] at h2
      simp at h2)
    rw [star_trivial, Matrix.mulVec_sub, sub_dotProduct, dotProduct_sub, dotProduct_sub] at this
    simp only [Matrix.mulVec_single_one, single_one_dotProduct, Matrix.col_apply, toeplitz] at this
    rw [List.getD_eq_getElem?_getD, List.getD_eq_getElem?_getD] at h01
    norm_num at this
    rw [h01] at this
    linarith
  have := (C71_returns_iff (R := R) cov hne g).2 hA
  rw [fgn_chol_eq none h0 h1 hN0 hdt g]
  rw [hlen] at this
  exact this

end

end MFA
