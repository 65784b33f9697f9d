import Verif.Props.Simul
import Verif.Lemmas.FgnCov
import Verif.Spec.Simul

/-!
# C70 for fractional Gaussian noise, C72
-/

namespace MFA

open Classical Finset MeasureTheory

noncomputable section

variable {R : ℕ} {Ω : Type*} [MeasurableSpace Ω] {μ : Measure Ω} {g : Ω → ℕ → ℝ}

theorem fgnCov_eq (H sigma dt : ℝ) (n : ℕ) : fgnCov H sigma dt n = dt ^ (2 * H) * sigma ^ 2 / 2 * fd (2 * H) n := rfl

theorem cosSpectrum_mul (a : ℕ → ℝ) (C : ℝ) (n k : ℕ) :
    cosSpectrum ((List.range n).map fun i => C * a i) k = C * cosSpectrum ((List.range n).map a) k := by
  unfold cosSpectrum
  rw [mul_sum, List.length_map, List.length_map]
  refine sum_congr rfl fun i _ => ?_
  have : ∀ j, ((List.range n).map fun i => C * a i).getD j 0 = C * ((List.range n).map a).getD j 0 := by
    intro j
    rw [List.getD_eq_getElem?_getD, List.getD_eq_getElem?_getD, List.getElem?_map, List.getElem?_map]
    cases (List.range n)[j]? <;> simp
  rw [this]; ring

theorem fgn_no_warning {H sigma dt : ℝ} (h0 : 0 ≤ H) (h1 : H ≤ 1) (hdt : 0 < dt) {N : ℕ} (hN : 2 ≤ N) :
    cmeWarns ((List.range N).map (fgnCov H sigma dt)) = false := by
  rw [cmeWarns_iff _ (by simpa using hN)]
  intro k hk
  rw [List.length_map, List.length_range] at hk
  have : (fgnCov H sigma dt) = fun i => dt ^ (2 * H) * sigma ^ 2 / 2 * fd (2 * H) i := funext fun i => fgnCov_eq H sigma dt i
  rw [this, cosSpectrum_mul]
  exact mul_nonneg (by positivity) (fd_spectrum_nonneg (by linarith) (by linarith) hN k hk)

/-- The step that `fgn` uses: the argument, or `1/N` when it is `None` or 0. -/
def effStep (dt : Option ℝ) (N : ℕ) : ℝ := if dt = none ∨ dt = some 0 then 1 / (N : ℝ) else dt.getD 0

theorem fgnDt_eq {dt : Option ℝ} {N : ℕ} (hN : N ≠ 0) (hdt : ∀ d, dt = some d → 0 ≤ d) :
    fgnDt dt N = .ok (effStep dt N) ∧ 0 < effStep dt N := by
  unfold fgnDt effStep
  have hN' : (0:ℝ) < N := by exact_mod_cast Nat.pos_of_ne_zero hN
  by_cases h : dt = none ∨ dt = some 0
  · rw [if_pos h, if_pos h, if_neg hN]; exact ⟨rfl, by positivity⟩
  · rw [if_neg h, if_neg h]
    push Not at h
    cases dt with
    | none => exact absurd rfl h.1
    | some d =>
      have hd := hdt d rfl
      have hd0 : d ≠ 0 := fun hc => h.2 (by rw [hc])
      simp only [Option.getD_some]
      rw [if_neg (not_lt.mpr hd)]
      exact ⟨rfl, lt_of_le_of_ne hd (Ne.symm hd0)⟩

theorem fgn_cme_eq {N : ℕ} {H sigma : ℝ} {dt : Option ℝ} (z0 : Option (CArr R)) (h0 : 0 ≤ H) (h1 : H ≤ 1) (hN : N ≠ 0)
    (hdt : ∀ d, dt = some d → 0 ≤ d) (g : Rng) :
    fgn R N H sigma dt "cme" z0 g = gaussianCme ((List.range N).map (fgnCov H sigma (effStep dt N))) N none g := by
  unfold fgn
  rw [if_neg (by simp [h0, h1]), (fgnDt_eq hN hdt).1]
  simp

theorem natAbs_cast (n m : ℕ) : ((Int.natAbs ((n : ℤ) - m) : ℕ) : ℝ) = |(n : ℝ) - m| := by
  rw [Nat.cast_natAbs]; push_cast; rfl

/-- The formula of the code is the covariance of the increments of fractional Brownian motion. -/
theorem fgnCov_spec {H sigma d : ℝ} (hd : 0 < d) (n m : ℕ) :
    fgnCov H sigma d (Int.natAbs ((n : ℤ) - m)) = fgnCovariance H sigma d (n * d) (m * d) := by
  unfold fgnCov fgnCovariance fbmCovariance
  rw [natAbs_cast, abs_abs]
  have hp : ∀ x : ℝ, |x * d| ^ (2 * H) = |x| ^ (2 * H) * d ^ (2 * H) := by
    intro x; rw [abs_mul, abs_of_pos hd, Real.mul_rpow (abs_nonneg _) hd.le]
  have e1 : (n:ℝ) * d + d = ((n:ℝ) + 1) * d := by ring
  have e2 : (m:ℝ) * d + d = ((m:ℝ) + 1) * d := by ring
  have e3 : ((m:ℝ) + 1) * d - ((n:ℝ) + 1) * d = ((m:ℝ) - n) * d := by ring
  have e4 : (m:ℝ) * d - ((n:ℝ) + 1) * d = ((m:ℝ) - n - 1) * d := by ring
  have e5 : ((m:ℝ) + 1) * d - (n:ℝ) * d = ((m:ℝ) - n + 1) * d := by ring
  have e6 : (m:ℝ) * d - (n:ℝ) * d = ((m:ℝ) - n) * d := by ring
  rw [e1, e2, e3, e4, e5, e6]
  simp only [hp]
  rcases le_total (m : ℝ) n with h | h
  · rw [abs_of_nonneg (sub_nonneg.mpr h), abs_sub_comm (m:ℝ) n, abs_of_nonneg (sub_nonneg.mpr h),
      show |(m:ℝ) - n - 1| = |(n:ℝ) - m + 1| by rw [← abs_neg]; congr 1; ring,
      show |(m:ℝ) - n + 1| = |(n:ℝ) - m - 1| by rw [← abs_neg]; congr 1; ring]
    ring
  · rw [abs_sub_comm (n:ℝ) m, abs_of_nonneg (sub_nonneg.mpr h)]
    ring

/-- **C70 / C72**.  For every `0 ≤ H ≤ 1`, `N ≥ 2` and every admissible step, `fgn` (default method) returns without warning,
and its `N` samples have mean zero and the exact autocovariance of the code's formula. -/
theorem C70_fgn {N : ℕ} {H sigma : ℝ} {dt : Option ℝ} (z0 : Option (CArr R)) (h0 : 0 ≤ H) (h1 : H ≤ 1) (hN : 2 ≤ N)
    (hdt : ∀ d, dt = some d → 0 ≤ d) (hR : R ≠ 0) (hg : WhiteNoise μ g) :
    NoWarning (fgn R N H sigma dt "cme" z0) ∧
    ∃ x : Ω → RArr R, Returns (fgn R N H sigma dt "cme" z0) g x ∧
      HasCovariance μ N x (fun n m => fgnCov H sigma (effStep dt N) (Int.natAbs ((n : ℤ) - m))) := by
  have hN0 : N ≠ 0 := by omega
  have hpos := (fgnDt_eq hN0 hdt).2
  set cov := (List.range N).map (fgnCov H sigma (effStep dt N)) with hcov
  have hlen : cov.length = N := by simp [hcov]
  have heq : fgn R N H sigma dt "cme" z0 = gaussianCme cov cov.length none := by
    funext g; rw [fgn_cme_eq z0 h0 h1 hN0 hdt g, hlen]
  have hnw : NoWarning (gaussianCme (R := R) cov cov.length none) := by
    intro g s hs
    rw [gaussianCme_eq cov (by omega) g] at hs
    cases hs
    exact fgn_no_warning h0 h1 hpos hN
  rw [heq]
  refine ⟨hnw, ?_⟩
  obtain ⟨x, hx, hiff⟩ := C70_exact_iff_no_warning (R := R) cov (by omega) hg hR
  refine ⟨x, hx, ?_⟩
  have h := hiff.mpr hnw
  rw [hlen] at h
  refine ⟨h.length, h.integrable1, h.mean, h.integrable, ?_⟩
  intro n hn m hm r r'
  rw [h.cov n hn m hm r r']
  have : cov.getD (Int.natAbs ((n : ℤ) - m)) 0 = fgnCov H sigma (effStep dt N) (Int.natAbs ((n : ℤ) - m)) := by
    rw [hcov, range_map_getD]; omega
  rw [this]

/-- **C72** for `fgn`: the samples are (in covariance) the increments of fractional Brownian motion over steps `dt`. -/
theorem C72_fgn {N : ℕ} {H sigma : ℝ} {dt : Option ℝ} (z0 : Option (CArr R)) (h0 : 0 < H) (h1 : H ≤ 1) (hN : 2 ≤ N)
    (hdt : ∀ d, dt = some d → 0 ≤ d) (hR : R ≠ 0) (hg : WhiteNoise μ g) :
    ∃ x : Ω → RArr R, Returns (fgn R N H sigma dt "cme" z0) g x ∧
      HasCovariance μ N x (fun n m => fgnCovariance H sigma (effStep dt N) (n * effStep dt N) (m * effStep dt N)) := by
  obtain ⟨-, x, hx, hc⟩ := C70_fgn (R := R) (sigma := sigma) z0 h0.le h1 hN hdt hR hg
  refine ⟨x, hx, hc.length, hc.integrable1, hc.mean, hc.integrable, ?_⟩
  intro n hn m hm r r'
  rw [hc.cov n hn m hm r r', fgnCov_spec (fgnDt_eq (by omega) hdt).2]

/-! ### Cumulative sums -/

theorem cumsum_length (a : RArr R) : (cumsum a).length = a.length := by simp [cumsum]

theorem cumsum_getD (a : RArr R) (n : ℕ) (hn : n < a.length) (r : Fin R) :
    ((cumsum a).getD n fun _ => 0) r = ∑ k ∈ range (n + 1), (a.getD k fun _ => 0) r := by
  rw [cumsum, range_map_getD _ _ _ _ hn]

theorem HasCovariance.cumsum {N : ℕ} {x : Ω → RArr R} {Γ : ℕ → ℕ → ℝ} (h : HasCovariance μ N x Γ) :
    HasCovariance μ N (fun ω => cumsum (x ω)) (fun n m => ∑ k ∈ range (n + 1), ∑ l ∈ range (m + 1), Γ k l) := by
  have hprod : ∀ n < N, ∀ m < N, ∀ r r', ∀ ω, ((MFA.cumsum (x ω)).getD n fun _ => 0) r * ((MFA.cumsum (x ω)).getD m fun _ => 0) r'
      = ∑ k ∈ range (n + 1), ∑ l ∈ range (m + 1), ((x ω).getD k fun _ => 0) r * ((x ω).getD l fun _ => 0) r' := by
    intro n hn m hm r r' ω
    rw [cumsum_getD _ _ (by rw [h.length]; exact hn), cumsum_getD _ _ (by rw [h.length]; exact hm), sum_mul_sum]
  refine ⟨fun ω => by rw [cumsum_length, h.length], ?_, ?_, ?_, ?_⟩
  · intro n hn r
    have : ∀ ω, ((MFA.cumsum (x ω)).getD n fun _ => 0) r = ∑ k ∈ range (n + 1), ((x ω).getD k fun _ => 0) r := by
      intro ω; rw [cumsum_getD _ _ (by rw [h.length]; exact hn)]
    simp_rw [this]
    refine integrable_finsetSum _ fun k hk => h.integrable1 k ?_ r
    have : k < n + 1 := by simpa using hk
    omega
  · intro n hn r
    have : ∀ ω, ((MFA.cumsum (x ω)).getD n fun _ => 0) r = ∑ k ∈ range (n + 1), ((x ω).getD k fun _ => 0) r := by
      intro ω; rw [cumsum_getD _ _ (by rw [h.length]; exact hn)]
    simp_rw [this]
    rw [integral_finsetSum]
    · refine sum_eq_zero fun k hk => h.mean k ?_ r
      have : k < n + 1 := by simpa using hk
      omega
    · intro k hk
      have : k < n + 1 := by simpa using hk
      exact h.integrable1 k (by omega) r
  · intro n hn m hm r r'
    simp_rw [hprod n hn m hm r r']
    refine integrable_finsetSum _ fun k hk => integrable_finsetSum _ fun l hl => h.integrable k ?_ l ?_ r r'
    · have : k < n + 1 := by simpa using hk
      omega
    · have : l < m + 1 := by simpa using hl
      omega
  · intro n hn m hm r r'
    simp_rw [hprod n hn m hm r r']
    have hI : ∀ k ∈ range (n + 1), ∀ l ∈ range (m + 1), Integrable (fun ω => ((x ω).getD k fun _ => 0) r * ((x ω).getD l fun _ => 0) r') μ := by
      intro k hk l hl
      have h1 : k < n + 1 := by simpa using hk
      have h2 : l < m + 1 := by simpa using hl
      exact h.integrable k (by omega) l (by omega) r r'
    rw [integral_finsetSum _ fun k hk => integrable_finsetSum _ fun l hl => hI k hk l hl]
    have : ∀ k ∈ range (n + 1), ∫ ω, ∑ l ∈ range (m + 1), ((x ω).getD k fun _ => 0) r * ((x ω).getD l fun _ => 0) r' ∂μ
        = ∑ l ∈ range (m + 1), if r = r' then Γ k l else 0 := by
      intro k hk
      rw [integral_finsetSum _ fun l hl => hI k hk l hl]
      refine sum_congr rfl fun l hl => ?_
      have h1 : k < n + 1 := by simpa using hk
      have h2 : l < m + 1 := by simpa using hl
      exact h.cov k (by omega) l (by omega) r r'
    rw [sum_congr rfl this]
    by_cases hr : r = r' <;> simp [hr]

/-- Telescoping of the second differences over a rectangle. -/
theorem fd_double_sum (α : ℝ) (p q : ℕ) :
    ∑ k ∈ range p, ∑ l ∈ range q, fd α (Int.natAbs ((k : ℤ) - l))
      = (p : ℝ) ^ α + (q : ℝ) ^ α - |(p : ℝ) - q| ^ α - (0:ℝ) ^ α := by
  have hfd : ∀ k l : ℕ, fd α (Int.natAbs ((k : ℤ) - l))
      = (|(k : ℝ) + 1 - l| ^ α - |(k : ℝ) - l| ^ α) - (|(k : ℝ) + 1 - (l + 1)| ^ α - |(k : ℝ) - (l + 1)| ^ α) := by
    intro k l
    unfold fd
    rw [natAbs_cast, abs_abs]
    rw [show (k : ℝ) + 1 - (l + 1) = (k : ℝ) - l by ring]
    rcases le_total (l : ℝ) k with h | h
    · rw [abs_of_nonneg (sub_nonneg.mpr h), show (k:ℝ) - l + 1 = k + 1 - l by ring, show (k:ℝ) - (l + 1) = k - l - 1 by ring]
      ring
    · rw [abs_of_nonpos (sub_nonpos.mpr h),
        show |-((k:ℝ) - l) + 1| = |(k:ℝ) - (l + 1)| by rw [← abs_neg]; congr 1; ring,
        show |-((k:ℝ) - l) - 1| = |(k:ℝ) + 1 - l| by rw [← abs_neg]; congr 1; ring]
      ring
  simp_rw [hfd]
  have h1 : ∀ k ∈ range p, ∑ l ∈ range q, ((|(k : ℝ) + 1 - l| ^ α - |(k : ℝ) - l| ^ α)
      - (|(k : ℝ) + 1 - (l + 1)| ^ α - |(k : ℝ) - (l + 1)| ^ α))
      = (|((k + 1 : ℕ) : ℝ)| ^ α - |((k + 1 : ℕ) : ℝ) - q| ^ α) - (|(k : ℝ)| ^ α - |(k : ℝ) - q| ^ α) := by
    intro k _
    have := sum_range_sub' (fun l : ℕ => |(k : ℝ) + 1 - l| ^ α - |(k : ℝ) - l| ^ α) q
    push_cast at this ⊢
    rw [this, sub_zero, sub_zero]; ring
  rw [sum_congr rfl h1, sum_range_sub (fun k : ℕ => |(k : ℝ)| ^ α - |(k : ℝ) - q| ^ α) p]
  rw [abs_of_nonneg (Nat.cast_nonneg (α := ℝ) p)]
  simp
  ring

/-- Double sums of the fGn autocovariance give the covariance of fractional Brownian motion. -/
theorem fgnCov_double_sum {H sigma d : ℝ} (hH : 0 < H) (hd : 0 < d) (p q : ℕ) :
    ∑ k ∈ range p, ∑ l ∈ range q, fgnCov H sigma d (Int.natAbs ((k : ℤ) - l))
      = fbmCovariance H sigma (p * d) (q * d) := by
  simp_rw [fgnCov_eq, ← mul_sum]
  rw [fd_double_sum, Real.zero_rpow (by linarith), fbmCovariance]
  have hp : ∀ x : ℝ, |x * d| ^ (2 * H) = |x| ^ (2 * H) * d ^ (2 * H) := by
    intro x; rw [abs_mul, abs_of_pos hd, Real.mul_rpow (abs_nonneg _) hd.le]
  rw [← sub_mul, hp, hp, hp, abs_of_nonneg (Nat.cast_nonneg (α := ℝ) p), abs_of_nonneg (Nat.cast_nonneg (α := ℝ) q), abs_sub_comm (q:ℝ) p]
  ring

/-- **C72**.  For every `0 < H ≤ 1`, `N ≥ 2`: `fbm` (default method) returns without warning, and sample `n` (counted from 0) is
centred and has with sample `m` the covariance of fractional Brownian motion at times `(n+1) dt` and `(m+1) dt`; different
realisations are uncorrelated. -/
theorem C72_fbm {N : ℕ} {H sigma : ℝ} {dt : Option ℝ} (z0 : Option (CArr R)) (h0 : 0 < H) (h1 : H ≤ 1) (hN : 2 ≤ N)
    (hdt : ∀ d, dt = some d → 0 ≤ d) (hR : R ≠ 0) (hg : WhiteNoise μ g) :
    NoWarning (fbm R N H sigma dt "cme" z0) ∧
    ∃ x : Ω → RArr R, Returns (fbm R N H sigma dt "cme" z0) g x ∧
      HasCovariance μ N x
        (fun n m => fbmCovariance H sigma ((n + 1 : ℕ) * effStep dt N) ((m + 1 : ℕ) * effStep dt N)) := by
  obtain ⟨hnw, x, hx, hc⟩ := C70_fgn (R := R) (sigma := sigma) z0 h0.le h1 hN hdt hR hg
  have hpos := (fgnDt_eq (N := N) (by omega) hdt).2
  refine ⟨?_, fun ω => cumsum (x ω), ?_, ?_⟩
  · intro g s hs
    unfold fbm at hs
    rcases hf : fgn R N H sigma dt "cme" z0 g with e | s'
    · rw [hf] at hs; cases hs
    · rw [hf] at hs; cases hs; exact hnw g s' hf
  · intro ω
    obtain ⟨s, hs, hsx⟩ := hx ω
    exact ⟨{ s with x := cumsum s.x }, by rw [fbm, hs], by show cumsum s.x = _; rw [hsx]⟩
  · have := hc.cumsum
    refine ⟨this.length, this.integrable1, this.mean, this.integrable, ?_⟩
    intro n hn m hm r r'
    rw [this.cov n hn m hm r r', fgnCov_double_sum h0 hpos]

/-- **C72**, variance: the variance of the `n`-th sample of `fbm` (`n >= 1`) is `sigma^2 (n dt)^(2H)`. -/
theorem C72_fbm_variance {N : ℕ} {H sigma : ℝ} {dt : Option ℝ} (z0 : Option (CArr R)) (h0 : 0 < H) (h1 : H ≤ 1) (hN : 2 ≤ N)
    (hdt : ∀ d, dt = some d → 0 ≤ d) (hR : R ≠ 0) (hg : WhiteNoise μ g) :
    ∃ x : Ω → RArr R, Returns (fbm R N H sigma dt "cme" z0) g x ∧
      ∀ n, 1 ≤ n → n ≤ N → ∀ r, ∫ ω, ((x ω).getD (n - 1) fun _ => 0) r ^ 2 ∂μ
        = sigma ^ 2 * ((n : ℝ) * effStep dt N) ^ (2 * H) := by
  obtain ⟨-, x, hx, hc⟩ := C72_fbm (R := R) (sigma := sigma) z0 h0 h1 hN hdt hR hg
  refine ⟨x, hx, fun n hn1 hnN r => ?_⟩
  have hpos := (fgnDt_eq (N := N) (by omega) hdt).2
  have := hc.cov (n - 1) (by omega) (n - 1) (by omega) r r
  rw [if_pos rfl, show n - 1 + 1 = n by omega, fbmCovariance, sub_self, abs_zero, Real.zero_rpow (by linarith)] at this
  have hsq : ∀ ω, ((x ω).getD (n - 1) fun _ => 0) r ^ 2 = ((x ω).getD (n - 1) fun _ => 0) r * ((x ω).getD (n - 1) fun _ => 0) r :=
    fun ω => sq _
  simp_rw [hsq]
  rw [this, abs_of_nonneg (by positivity)]
  ring

theorem fgnCov_half (sigma : ℝ) {d : ℝ} (n : ℕ) :
    fgnCov (1 / 2) sigma d n = if n = 0 then sigma ^ 2 * d else 0 := by
  rw [fgnCov_eq, show 2 * (1 / 2 : ℝ) = 1 by norm_num, Real.rpow_one]
  cases n with
  | zero => rw [fd_zero]; simp; ring
  | succ n => rw [fd_succ]; simp; right; ring

theorem fgnCov_H_zero (sigma d : ℝ) (n : ℕ) : fgnCov 0 sigma d n = 0 := by
  rw [fgnCov_eq]; unfold fd; norm_num

/-- **C72**: for `H = 1/2` the samples returned by `fgn` are uncorrelated, with variance `sigma^2 dt` (Brownian
increments). -/
theorem C72_brownian {N : ℕ} {sigma : ℝ} {dt : Option ℝ} (z0 : Option (CArr R)) (hN : 2 ≤ N)
    (hdt : ∀ d, dt = some d → 0 ≤ d) (hR : R ≠ 0) (hg : WhiteNoise μ g) :
    ∃ x : Ω → RArr R, Returns (fgn R N (1 / 2) sigma dt "cme" z0) g x ∧
      HasCovariance μ N x (fun n m => if n = m then sigma ^ 2 * effStep dt N else 0) := by
  obtain ⟨-, x, hx, hc⟩ := C70_fgn (R := R) (sigma := sigma) z0 (by norm_num : (0:ℝ) ≤ 1 / 2) (by norm_num) hN hdt hR hg
  refine ⟨x, hx, hc.length, hc.integrable1, hc.mean, hc.integrable, ?_⟩
  intro n hn m hm r r'
  rw [hc.cov n hn m hm r r', fgnCov_half]
  by_cases h : n = m
  · simp [h]
  · have : ¬ Int.natAbs ((n : ℤ) - m) = 0 := by omega
    rw [if_neg h, if_neg this]

/-- **C72**: `H = 0` is accepted, and gives samples that are almost surely all 0, whatever `sigma`. -/
theorem C72_H_zero {N : ℕ} {sigma : ℝ} {dt : Option ℝ} (z0 : Option (CArr R)) (hN : 2 ≤ N)
    (hdt : ∀ d, dt = some d → 0 ≤ d) (hR : R ≠ 0) (hg : WhiteNoise μ g) :
    ∃ x : Ω → RArr R, Returns (fgn R N 0 sigma dt "cme" z0) g x ∧
      ∀ n < N, ∀ r, ∀ᵐ ω ∂μ, ((x ω).getD n fun _ => 0) r = 0 := by
  obtain ⟨-, x, hx, hc⟩ := C70_fgn (R := R) (sigma := sigma) z0 (le_refl (0:ℝ)) (by norm_num) hN hdt hR hg
  refine ⟨x, hx, fun n hn r => ?_⟩
  have h := hc.cov n hn n hn r r
  rw [fgnCov_H_zero, if_pos rfl, integral_eq_zero_iff_of_nonneg (fun ω => mul_self_nonneg _)
    (hc.integrable n hn n hn r r)] at h
  filter_upwards [h] with ω hω
  exact mul_self_eq_zero.mp hω

end

end MFA
