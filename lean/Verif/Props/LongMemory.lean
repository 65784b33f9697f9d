import Verif.Props.SimulFgn
import Verif.Props.SimulDemo
import Verif.Lemmas.Memory

/-! # C112: memory of the noise returned by `fgn` -/

namespace MFA

open Classical Finset MeasureTheory Filter Topology

noncomputable section

universe u

/-- **C112**.  For every `0 < H <= 1` there is an autocorrelation function `ρ`, the same for every number of samples and realisations,
`sigma` and step, such that the samples `n` and `m` of the noise returned by `fgn` have covariance `sigma^2 dt^(2H) ρ(|n - m|)`, and:
the correlations decay like `H (2H - 1) k^(2H - 2)`; they are all negative for `H < 1/2`, zero for `H = 1/2`, positive for `H > 1/2`;
they sum up to 0 over all lags for `H < 1/2` (anti-persistence) and are not summable for `H > 1/2` (long memory). -/
theorem C112_memory {H : ℝ} (h0 : 0 < H) (h1 : H ≤ 1) :
    ∃ ρ : ℕ → ℝ,
      (∀ {R N : ℕ} {Ω : Type u} [MeasurableSpace Ω] {μ : Measure Ω} {g : Ω → ℕ → ℝ} (sigma : ℝ) (dt : Option ℝ)
        (z0 : Option (CArr R)), 2 ≤ N → (∀ d, dt = some d → 0 ≤ d) → R ≠ 0 → WhiteNoise μ g →
        ∃ x : Ω → RArr R, Returns (fgn R N H sigma dt "cme" z0) g x ∧
          HasCovariance μ N x (fun n m => sigma ^ 2 * effStep dt N ^ (2 * H) * ρ (Int.natAbs ((n : ℤ) - m)))) ∧
      ρ 0 = 1 ∧
      Tendsto (fun k : ℕ => ρ k * (k : ℝ) ^ (2 - 2 * H)) atTop (𝓝 (H * (2 * H - 1))) ∧
      (∀ n : ℕ, ρ 0 + 2 * ∑ k ∈ Icc 1 n, ρ k = ((n : ℝ) + 1) ^ (2 * H) - (n : ℝ) ^ (2 * H)) ∧
      (H < 1 / 2 → (∀ k, 1 ≤ k → ρ k < 0) ∧ Summable ρ ∧ ρ 0 + 2 * ∑' k, ρ (k + 1) = 0) ∧
      (H = 1 / 2 → ∀ k, 1 ≤ k → ρ k = 0) ∧
      (1 / 2 < H → (∀ k, 1 ≤ k → 0 < ρ k) ∧ ¬ Summable ρ ∧
        Tendsto (fun n : ℕ => ∑ k ∈ Icc 1 n, ρ k) atTop atTop) := by
  have hα : 0 < 2 * H := by linarith
  have hz : fd (2 * H) 0 / 2 = 1 := by rw [fd_zero]; simp [Real.zero_rpow hα.ne']
  have hsum : ∀ n : ℕ, fd (2 * H) 0 / 2 + 2 * ∑ k ∈ Icc 1 n, fd (2 * H) k / 2
      = ((n : ℝ) + 1) ^ (2 * H) - (n : ℝ) ^ (2 * H) := by
    intro n
    have h := fd_sum hα n
    have hI : ∑ k ∈ Icc 1 n, fd (2 * H) k / 2 = (∑ i ∈ range n, fd (2 * H) (i + 1)) / 2 := by
      rw [sum_div, range_eq_Ico, sum_Ico_add' (fun i => fd (2 * H) i / 2) 0 n 1]
      congr 1
    rw [hI, hz]; linarith
  refine ⟨fun k => fd (2 * H) k / 2, ?_, hz, ?_, hsum, ?_, ?_, ?_⟩
  · intro R N Ω _ μ g sigma dt z0 hN hdt hR hg
    obtain ⟨-, x, hx, hc⟩ := C70_fgn (R := R) (sigma := sigma) z0 h0.le h1 hN hdt hR hg
    refine ⟨x, hx, hc.length, hc.integrable1, hc.mean, hc.integrable, ?_⟩
    intro n hn m hm r r'
    rw [hc.cov n hn m hm r r', fgnCov_eq]
    by_cases h : r = r'
    · simp only [h, if_true]; ring
    · simp only [h, if_false]
  · have := (fd_asymptotic hα).div_const 2
    refine (this.congr fun k => by ring).trans (le_of_eq (by congr 1; ring))
  · intro hH
    have hneg : ∀ k, 1 ≤ k → fd (2 * H) k / 2 < 0 := by
      intro k hk
      obtain ⟨n, rfl⟩ : ∃ n, k = n + 1 := ⟨k - 1, by omega⟩
      have := fd_neg hα (by linarith) n
      linarith
    have hs : HasSum (fun k : ℕ => -(fd (2 * H) (k + 1) / 2)) (1 / 2) := by
      rw [hasSum_iff_tendsto_nat_of_nonneg (fun k => by have := hneg (k + 1) (by omega); linarith)]
      have h2 := ((rpow_diff_zero hα (by linarith)).const_sub 1).div_const 2
      rw [sub_zero] at h2
      refine h2.congr fun n => ?_
      rw [sum_neg_distrib, ← sum_div]
      have := fd_sum hα n
      linarith
    have hs' := hs.neg
    simp only [neg_neg] at hs'
    refine ⟨hneg, (summable_nat_add_iff (f := fun k => fd (2 * H) k / 2) 1).mp hs'.summable, ?_⟩
    rw [hs'.tsum_eq]
    show fd (2 * H) 0 / 2 + 2 * -(1 / 2) = 0
    rw [hz]; norm_num
  · intro hH k hk
    obtain ⟨n, rfl⟩ : ∃ n, k = n + 1 := ⟨k - 1, by omega⟩
    obtain ⟨ξ, -, -, h⟩ := fd_mean hα n
    show fd (2 * H) (n + 1) / 2 = 0
    rw [h, hH]; norm_num
  · intro hH
    have hpos : ∀ k, 1 ≤ k → 0 < fd (2 * H) k / 2 := by
      intro k hk
      obtain ⟨n, rfl⟩ : ∃ n, k = n + 1 := ⟨k - 1, by omega⟩
      have := fd_pos (α := 2 * H) (by linarith) n
      linarith
    have htop : Tendsto (fun n : ℕ => ∑ k ∈ Icc 1 n, fd (2 * H) k / 2) atTop atTop := by
      have h2 := (tendsto_atTop_add_const_right _ (-1) (rpow_diff_top (α := 2 * H) (by linarith))).atTop_div_const
        (show (0:ℝ) < 2 by norm_num)
      refine h2.congr fun n => ?_
      have := hsum n
      rw [hz] at this
      linarith
    refine ⟨hpos, fun hs => ?_, htop⟩
    have h1s := ((summable_nat_add_iff (f := fun k => fd (2 * H) k / 2) 1).mpr hs).hasSum.tendsto_sum_nat
    have h2 : Tendsto (fun n : ℕ => ∑ k ∈ range n, fd (2 * H) (k + 1) / 2) atTop atTop := by
      refine htop.congr fun n => ?_
      rw [range_eq_Ico, sum_Ico_add' (fun i => fd (2 * H) i / 2) 0 n 1]
      congr 1
    exact not_tendsto_nhds_of_tendsto_atTop h2 _ h1s

/-- **C112**, consequence: the average of `n` samples of the noise has variance `sigma^2 dt^(2H) n^(2H - 2)`: it converges slower
than the usual `1/n` for `H > 1/2` (not at all for `H = 1`), faster for `H < 1/2`. -/
theorem C112_average {R N : ℕ} {H : ℝ} {Ω : Type u} [MeasurableSpace Ω] {μ : Measure Ω} {g : Ω → ℕ → ℝ} {sigma : ℝ}
    {dt : Option ℝ} (z0 : Option (CArr R)) (h0 : 0 < H) (h1 : H ≤ 1) (hN : 2 ≤ N) (hdt : ∀ d, dt = some d → 0 ≤ d)
    (hR : R ≠ 0) (hg : WhiteNoise μ g) :
    ∃ x : Ω → RArr R, Returns (fgn R N H sigma dt "cme" z0) g x ∧ ∀ n, 1 ≤ n → n ≤ N → ∀ r,
      ∫ ω, ((∑ k ∈ range n, ((x ω).getD k fun _ => 0) r) / n) ^ 2 ∂μ
        = sigma ^ 2 * effStep dt N ^ (2 * H) * (n : ℝ) ^ (2 * H - 2) := by
  obtain ⟨-, x, hx, hc⟩ := C70_fgn (R := R) (sigma := sigma) z0 h0.le h1 hN hdt hR hg
  have hpos := (fgnDt_eq (N := N) (by omega) hdt).2
  refine ⟨x, hx, fun n hn1 hnN r => ?_⟩
  have hv := hc.cumsum.cov (n - 1) (by omega) (n - 1) (by omega) r r
  rw [if_pos rfl, Nat.sub_add_cancel hn1, fgnCov_double_sum h0 hpos] at hv
  have hn : (0:ℝ) < n := by exact_mod_cast hn1
  have hcs : ∀ ω, ((∑ k ∈ range n, ((x ω).getD k fun _ => 0) r) / n) ^ 2
      = ((cumsum (x ω)).getD (n - 1) fun _ => 0) r * ((cumsum (x ω)).getD (n - 1) fun _ => 0) r * (1 / (n : ℝ) ^ 2) := by
    intro ω
    rw [cumsum_getD _ _ (by rw [hc.length]; omega), Nat.sub_add_cancel hn1]
    field_simp
  simp_rw [hcs]
  rw [integral_mul_const, hv, fbmCovariance, sub_self, abs_zero, Real.zero_rpow (by linarith : 2 * H ≠ 0),
    abs_of_pos (mul_pos hn hpos), Real.mul_rpow hn.le hpos.le, Real.rpow_sub hn, Real.rpow_two]
  ring

/-- The hypotheses of C112 are met: long memory for `H = 4/5` from independent standard normal draws. -/
example : ∃ (Ω : Type) (_ : MeasurableSpace Ω) (μ : Measure Ω) (g : Ω → ℕ → ℝ) (x : Ω → RArr 3), StdNormal μ g ∧
    Returns (fgn 3 1000 (4 / 5) 2 none "cme" none) g x ∧ ∀ r, ∫ ω, ((∑ k ∈ range 1000, ((x ω).getD k fun _ => 0) r) / (1000 : ℕ)) ^ 2 ∂μ
        = 2 ^ 2 * (1 / (1000 : ℕ) : ℝ) ^ (2 * (4 / 5 : ℝ)) * ((1000 : ℕ) : ℝ) ^ (2 * (4 / 5 : ℝ) - 2) := by
  obtain ⟨Ω, m, μ, g, h⟩ := exists_stdNormal
  obtain ⟨x, hx, hv⟩ := C112_average (R := 3) (N := 1000) (H := 4 / 5) (sigma := 2) (dt := none) none (by norm_num) (by norm_num)
    (by norm_num) (by simp) (by norm_num) h.whiteNoise
  refine ⟨Ω, m, μ, g, x, h, hx, fun r => ?_⟩
  have := hv 1000 (by norm_num) le_rfl r
  rw [this]; simp [effStep]

end

end MFA
