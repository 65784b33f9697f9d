import Verif.Lemmas.MrwKernel
import Verif.Lemmas.MrwMoments
import Mathlib.Analysis.Convex.SpecificFunctions.Basic

/-! Moments of the detail coefficients of log-normally modulated white noise. -/

namespace MFA

open Classical Finset MeasureTheory ProbabilityTheory

noncomputable section

theorem sum_eq_of_zero {f : ℤ → ℝ} {U V : Finset ℤ} (hU : ∀ n, n ∉ U → f n = 0) (hV : ∀ n, n ∉ V → f n = 0) :
    ∑ n ∈ U, f n = ∑ n ∈ V, f n := by
  rw [sum_subset (subset_union_left (s₂ := V)) fun n _ hn => hU n hn, sum_subset (subset_union_right (s₁ := U)) fun n _ hn => hV n hn]

theorem sum_nat_window {f : ℤ → ℝ} {N : ℕ} {A B s : ℤ} (hN : ∀ n, n ∉ Ico (0:ℤ) N → f n = 0) (hW : ∀ n, n - s ∉ Ioc A B → f n = 0) :
    ∑ n ∈ range N, f n = ∑ m ∈ Ioc A B, f (m + s) := by
  have e1 : ∑ n ∈ range N, f n = ∑ n ∈ Ico (0:ℤ) N, f n := by
    refine sum_bij (fun (n : ℕ) _ => (n : ℤ)) ?_ ?_ ?_ ?_
    · intro n hn; rw [mem_range] at hn; rw [mem_Ico]; omega
    · intro a _ b _ h; exact_mod_cast h
    · intro b hb; rw [mem_Ico] at hb; exact ⟨b.toNat, by rw [mem_range]; omega, by omega⟩
    · intro n _; rfl
  have e2 : ∑ m ∈ Ioc A B, f (m + s) = ∑ n ∈ (Ioc A B).map (addRightEmbedding s), f n := by
    rw [sum_map]; rfl
  rw [e1, e2]
  refine sum_eq_of_zero hN fun n hn => hW n fun h => hn ?_
  rw [mem_map]
  exact ⟨n - s, h, by simp⟩

/-- Sums of negative powers. -/
theorem sum_rpow_neg_le {β : ℝ} (h0 : 0 ≤ β) (h1 : β < 1) (n : ℕ) :
    ∑ k ∈ range n, ((k : ℝ) + 1) ^ (-β) ≤ (n : ℝ) ^ (1 - β) / (1 - β) := by
  have hb : 0 < 1 - β := by linarith
  induction n with
  | zero => simp; positivity
  | succ n ih =>
    rw [sum_range_succ]
    have hn : (0:ℝ) < (n : ℝ) + 1 := by positivity
    have key : ((n : ℝ)) ^ (1 - β) ≤ ((n : ℝ) + 1) ^ (1 - β) - (1 - β) * ((n : ℝ) + 1) ^ (-β) := by
      have h := rpow_one_add_le_one_add_mul_self (s := -(1 / ((n : ℝ) + 1))) (p := 1 - β)
        (by rw [neg_le_neg_iff, div_le_one hn]; linarith [Nat.cast_nonneg (α := ℝ) n]) hb.le (by linarith)
      have e1 : 1 + -(1 / ((n : ℝ) + 1)) = n / (n + 1) := by field_simp; ring
      rw [e1, Real.div_rpow (by positivity) hn.le, div_le_iff₀ (by positivity)] at h
      have e2 : ((n : ℝ) + 1) ^ (1 - β) = ((n : ℝ) + 1) * ((n : ℝ) + 1) ^ (-β) := by
        rw [show 1 - β = 1 + -β by ring, Real.rpow_add hn, Real.rpow_one]
      refine h.trans (le_of_eq ?_)
      rw [e2]
      field_simp
      ring
    have : (n : ℝ) ^ (1 - β) / (1 - β) + ((n : ℝ) + 1) ^ (-β) ≤ ((n : ℝ) + 1) ^ (1 - β) / (1 - β) := by
      rw [← le_sub_iff_add_le', ← sub_div, le_div_iff₀ hb]
      linarith
    push_cast
    linarith

/-- Sum over a window of a decreasing function of the distance to a point. -/
theorem sum_distance_le {A B : ℤ} {W : ℕ} (hW : B - A ≤ W) {n : ℤ} (hn : n ∈ Ioc A B) {φ : ℕ → ℝ} (hφ : ∀ k, 0 ≤ φ k) :
    ∑ m ∈ Ioc A B, φ (Int.natAbs (n - m)) ≤ 2 * ∑ k ∈ range W, φ k := by
  rw [mem_Ioc] at hn
  have h1 : ∑ m ∈ (Ioc A B).filter (fun m => m ≤ n), φ (Int.natAbs (n - m)) ≤ ∑ k ∈ range W, φ k := by
    rw [← sum_image (s := (Ioc A B).filter (fun m => m ≤ n)) (g := fun m => Int.natAbs (n - m)) (f := φ)]
    · refine sum_le_sum_of_subset_of_nonneg ?_ fun _ _ _ => hφ _
      intro k hk
      rw [mem_image] at hk
      obtain ⟨m, hm, rfl⟩ := hk
      rw [mem_filter, mem_Ioc] at hm
      rw [mem_range]; omega
    · intro a ha b hb h
      rw [mem_coe, mem_filter, mem_Ioc] at ha hb
      simp only at h
      omega
  have h2 : ∑ m ∈ (Ioc A B).filter (fun m => ¬ m ≤ n), φ (Int.natAbs (n - m)) ≤ ∑ k ∈ range W, φ k := by
    rw [← sum_image (s := (Ioc A B).filter (fun m => ¬ m ≤ n)) (g := fun m => Int.natAbs (n - m)) (f := φ)]
    · refine sum_le_sum_of_subset_of_nonneg ?_ fun _ _ _ => hφ _
      intro k hk
      rw [mem_image] at hk
      obtain ⟨m, hm, rfl⟩ := hk
      rw [mem_filter, mem_Ioc] at hm
      rw [mem_range]; omega
    · intro a ha b hb h
      rw [mem_coe, mem_filter, mem_Ioc] at ha hb
      simp only at h
      omega
  rw [← sum_filter_add_sum_filter_not (Ioc A B) (fun m => m ≤ n)]
  linarith

/-- The energy of the weights of the increments at scale `j + 1`. -/
def stepEnergy (wt : Wavelet) (j : ℕ) : ℝ := -dblDetail wt (fun n => |(n : ℝ)| ^ (1:ℝ)) j / 2

variable {wt : Wavelet}

/-- The fourth moment of a coefficient within the range of the correlations: up to a constant factor, the square of the second
moment times the covariance factor at the scale of the wavelet. -/
theorem fourth_bounds {A B : ℤ} {W : ℕ} (hBA : B - A ≤ W) {C : ℤ → ℝ} {Q : ℝ} (hC : ∀ n, C n ^ 2 ≤ W) (hQ : ∑ n ∈ Ioc A B, C n ^ 2 = Q) (hQ0 : 0 < Q)
    {β : ℝ} (h0 : 0 ≤ β) (h1 : β < 1) {c : ℝ} (hc : 0 < c) (hWQ : c * (W : ℝ) ^ 2 ≤ Q) :
    Q ^ 2 * (W : ℝ) ^ (-β) ≤ ∑ n ∈ Ioc A B, ∑ m ∈ Ioc A B, C n ^ 2 * C m ^ 2 * ((Int.natAbs (n - m) : ℝ) + 1) ^ (-β) ∧
    ∑ n ∈ Ioc A B, ∑ m ∈ Ioc A B, C n ^ 2 * C m ^ 2 * ((Int.natAbs (n - m) : ℝ) + 1) ^ (-β) ≤
      2 / (c * (1 - β)) * (Q ^ 2 * (W : ℝ) ^ (-β)) := by
  have hb : 0 < 1 - β := by linarith
  have hW0 : 0 < W := by
    by_contra hW0
    have : Ioc A B = ∅ := by rw [Finset.Ioc_eq_empty_iff]; omega
    rw [this, sum_empty] at hQ
    linarith
  have hWr : (0:ℝ) < W := by exact_mod_cast hW0
  constructor
  · rw [sq, ← hQ, sum_mul_sum, sum_mul]
    refine sum_le_sum fun n hn => ?_
    rw [sum_mul]
    refine sum_le_sum fun m hm => ?_
    refine mul_le_mul_of_nonneg_left ?_ (by positivity)
    rw [mem_Ioc] at hn hm
    have : Int.natAbs (n - m) + 1 ≤ W := by omega
    exact Real.rpow_le_rpow_of_nonpos (by positivity) (by exact_mod_cast this) (by linarith)
  · have h2 : ∀ n ∈ Ioc A B, ∑ m ∈ Ioc A B, C n ^ 2 * C m ^ 2 * ((Int.natAbs (n - m) : ℝ) + 1) ^ (-β) ≤
        C n ^ 2 * (W * (2 * ((W : ℝ) ^ (1 - β) / (1 - β)))) := by
      intro n hn
      have h3 := sum_distance_le hBA hn (φ := fun k => ((k : ℝ) + 1) ^ (-β)) (fun k => by positivity)
      have h4 := sum_rpow_neg_le h0 h1 W
      calc ∑ m ∈ Ioc A B, C n ^ 2 * C m ^ 2 * ((Int.natAbs (n - m) : ℝ) + 1) ^ (-β)
          ≤ ∑ m ∈ Ioc A B, C n ^ 2 * (W * ((Int.natAbs (n - m) : ℝ) + 1) ^ (-β)) := by
            refine sum_le_sum fun m _ => ?_
            rw [mul_assoc]
            exact mul_le_mul_of_nonneg_left (mul_le_mul_of_nonneg_right (hC m) (by positivity)) (sq_nonneg _)
        _ = C n ^ 2 * (W * ∑ m ∈ Ioc A B, ((Int.natAbs (n - m) : ℝ) + 1) ^ (-β)) := by rw [mul_sum, mul_sum]
        _ ≤ _ := by
            refine mul_le_mul_of_nonneg_left (mul_le_mul_of_nonneg_left (h3.trans ?_) hWr.le) (sq_nonneg _)
            exact mul_le_mul_of_nonneg_left h4 (by norm_num)
    refine (sum_le_sum h2).trans ?_
    rw [← sum_mul, hQ]
    have e : (W : ℝ) ^ (1 - β) = W * (W : ℝ) ^ (-β) := by rw [show 1 - β = 1 + -β by ring, Real.rpow_add hWr, Real.rpow_one]
    rw [e]
    have hp : (0:ℝ) < (W : ℝ) ^ (-β) := by positivity
    rw [div_mul_eq_mul_div, le_div_iff₀ (by positivity)]
    have : Q * (W * (2 * (W * (W : ℝ) ^ (-β) / (1 - β)))) * (c * (1 - β)) = 2 * (Q * ((c * (W : ℝ) ^ 2) * (W : ℝ) ^ (-β))) := by
      field_simp
    rw [this]
    have h5 := mul_le_mul_of_nonneg_left (mul_le_mul_of_nonneg_right hWQ hp.le) hQ0.le
    nlinarith

/-- The covariance factor of the log-volatility within the integral scale. -/
theorem exp_cov {lam L : ℝ} (hL : 0 < L) {k : ℕ} (hk : (k : ℝ) + 1 ≤ L) :
    Real.exp (4 * mrwLogCovariance lam L k) = L ^ (4 * lam ^ 2) * ((k : ℝ) + 1) ^ (-(4 * lam ^ 2)) := by
  have hk0 : (0:ℝ) < (k : ℝ) + 1 := by positivity
  rw [mrwLogCovariance, if_pos hk, Real.rpow_def_of_pos hL, Real.rpow_def_of_pos hk0, ← Real.exp_add, Real.log_div hL.ne' hk0.ne']
  congr 1; ring

/-- **Moments of the detail coefficients of modulated noise.** -/
theorem detail_moments (hwt : wt.Valid) (ho : OrthonormalBank wt) {M : ℕ} (hM : VanishingMoments wt.dec_hi M) (hM1 : 1 ≤ M) (lam L : ℝ) (hL : 0 < L) (j : ℕ) :
    ∃ (m4 D : ℝ) (T : ℕ), 0 ≤ D ∧
      (∀ c, 0 < c → c * ((2 * wt.dec_hi.length * 2 ^ j : ℕ) : ℝ) ^ 2 ≤ stepEnergy wt j → 4 * lam ^ 2 < 1 → ((2 * wt.dec_hi.length * 2 ^ j : ℕ) : ℝ) ≤ L →
        3 * L ^ (8 * lam ^ 2) * (stepEnergy wt j ^ 2 * ((2 * wt.dec_hi.length * 2 ^ j : ℕ) : ℝ) ^ (-(4 * lam ^ 2))) ≤ m4 ∧
        m4 ≤ 2 / (c * (1 - 4 * lam ^ 2)) * (3 * L ^ (8 * lam ^ 2) * (stepEnergy wt j ^ 2 * ((2 * wt.dec_hi.length * 2 ^ j : ℕ) : ℝ) ^ (-(4 * lam ^ 2))))) ∧
    ∀ {Ω : Type*} [MeasurableSpace Ω] {μ : Measure Ω} {N : ℕ} {e w : ℕ → Ω → ℝ}, ModulatedNoise μ N e w (mrwLogCovariance lam L) →
      ∀ k : ℕ, (∀ n : ℤ, n ∉ Ico (0:ℤ) N → stepWeight wt (j + 1) k n = 0) →
      (∀ q ≤ 8, Integrable (fun ω => modSum e w (range N) (fun n => stepWeight wt (j + 1) k n) ω ^ q) μ) ∧
      ∫ ω, modSum e w (range N) (fun n => stepWeight wt (j + 1) k n) ω ^ 2 ∂μ = Real.exp (2 * mrwLogCovariance lam L 0) * stepEnergy wt j ∧
      ∫ ω, modSum e w (range N) (fun n => stepWeight wt (j + 1) k n) ω ^ 4 ∂μ = m4 ∧
      ∫ ω, modSum e w (range N) (fun n => stepWeight wt (j + 1) k n) ω ^ 8 ∂μ ≤ D ∧
      ∀ l : ℕ, (∀ n : ℤ, n ∉ Ico (0:ℤ) N → stepWeight wt (j + 1) l n = 0) → T < Int.natAbs ((k : ℤ) - l) →
        IndepFun (modSum e w (range N) (fun n => stepWeight wt (j + 1) k n)) (modSum e w (range N) (fun n => stepWeight wt (j + 1) l n)) μ := by
  obtain ⟨A, B, hAB, hlen, hzero, hsq, hen⟩ := stepWeight_props hwt ho hM hM1 j
  obtain ⟨C, hC⟩ : ∃ C : ℤ → ℝ, C = stepWeight wt (j + 1) 0 := ⟨_, rfl⟩
  obtain ⟨W, hWd⟩ : ∃ W : ℕ, W = 2 * wt.dec_hi.length * 2 ^ j := ⟨_, rfl⟩
  have hWr : (W : ℝ) = 2 * wt.dec_hi.length * 2 ^ j := by rw [hWd]; push_cast; ring
  have hBA : B - A ≤ (W : ℤ) := by
    rw [← hWr] at hlen
    exact_mod_cast hlen
  rw [← hWr] at hsq
  rw [← hC] at hzero hsq hen
  have hen' : ∑ n ∈ Ioc A B, C n ^ 2 = stepEnergy wt j := hen
  have hsh : ∀ (k : ℕ) (n : ℤ), stepWeight wt (j + 1) k n = C (n - k * 2 ^ (j + 1)) := by
    intro k n
    rw [hC, stepWeight_shift wt (by omega) k n]
  have hW1 : ∀ (k : ℕ) (n : ℤ), n - k * 2 ^ (j + 1) ∉ Ioc A B → stepWeight wt (j + 1) k n = 0 := by
    intro k n hn
    rw [hsh, hzero _ hn]
  obtain ⟨ρ, hρ⟩ : ∃ ρ, ρ = mrwLogCovariance lam L := ⟨_, rfl⟩
  rw [← hρ, ← hWd]
  refine ⟨3 * ∑ n ∈ Ioc A B, ∑ m ∈ Ioc A B, C n ^ 2 * C m ^ 2 * Real.exp (4 * ρ 0 + 4 * ρ (Int.natAbs (n - m))),
    (W : ℝ) ^ 7 * (W * (W : ℝ) ^ 4) * ((∫ y, y ^ 8 ∂gaussianReal 0 1) * Real.exp (32 * ρ 0)), W + ⌈L⌉₊, ?_, ?_, ?_⟩
  · have : 0 ≤ ∫ y, y ^ 8 ∂gaussianReal 0 1 := integral_nonneg fun y => by positivity
    positivity
  · intro c hc hcW hlam hWL
    have hQ0 : 0 < stepEnergy wt j := by
      refine lt_of_lt_of_le ?_ hcW
      have : (0:ℝ) < W := by
        rw [hWr]; have : (0:ℝ) < wt.dec_hi.length := by exact_mod_cast hwt.pos
        positivity
      positivity
    obtain ⟨b1, b2⟩ := fourth_bounds hBA hsq hen' hQ0 (β := 4 * lam ^ 2) (by positivity) hlam hc hcW
    have e : ∑ n ∈ Ioc A B, ∑ m ∈ Ioc A B, C n ^ 2 * C m ^ 2 * Real.exp (4 * ρ 0 + 4 * ρ (Int.natAbs (n - m))) =
        L ^ (8 * lam ^ 2) * ∑ n ∈ Ioc A B, ∑ m ∈ Ioc A B, C n ^ 2 * C m ^ 2 * ((Int.natAbs (n - m) : ℝ) + 1) ^ (-(4 * lam ^ 2)) := by
      rw [mul_sum]
      refine sum_congr rfl fun n hn => ?_
      rw [mul_sum]
      refine sum_congr rfl fun m hm => ?_
      rw [mem_Ioc] at hn hm
      have h1 : Int.natAbs (n - m) + 1 ≤ W := by omega
      have h2 : ((Int.natAbs (n - m) : ℕ) : ℝ) + 1 ≤ L := by
        refine le_trans ?_ hWL
        exact_mod_cast h1
      have h3 : ((0 : ℕ) : ℝ) + 1 ≤ L := by
        refine le_trans ?_ h2
        push_cast; linarith [Nat.cast_nonneg (α := ℝ) (Int.natAbs (n - m))]
      rw [Real.exp_add, hρ, exp_cov hL h2, exp_cov hL h3, show 8 * lam ^ 2 = 4 * lam ^ 2 + 4 * lam ^ 2 by ring, Real.rpow_add hL]
      simp only [Nat.cast_zero, zero_add, Real.one_rpow]
      ring
    rw [e]
    have hp : 0 < L ^ (8 * lam ^ 2) := by positivity
    constructor
    · have := mul_le_mul_of_nonneg_left b1 hp.le
      nlinarith
    · have := mul_le_mul_of_nonneg_left b2 hp.le
      nlinarith
  · intro Ω _ μ N e w h k hk
    have hI : ∀ k : ℕ, ∀ n ∈ (range N).filter (fun n : ℕ => stepWeight wt (j + 1) k n ≠ 0), n < N := by
      intro k n hn; exact mem_range.1 (mem_filter.1 hn).1
    have hmem : ∀ k : ℕ, ∀ n ∈ (range N).filter (fun n : ℕ => stepWeight wt (j + 1) k n ≠ 0), (n : ℤ) - k * 2 ^ (j + 1) ∈ Ioc A B := by
      intro k n hn
      by_contra hh
      exact (mem_filter.1 hn).2 (hW1 k n hh)
    have hcard : ((range N).filter (fun n : ℕ => stepWeight wt (j + 1) k n ≠ 0)).card ≤ W := by
      have h1 : ((range N).filter (fun n : ℕ => stepWeight wt (j + 1) k n ≠ 0)).card ≤ (Ioc A B).card :=
        card_le_card_of_injOn (fun n : ℕ => (n : ℤ) - k * 2 ^ (j + 1)) (fun n hn => hmem k n hn) (fun a _ b _ hab => by simp only at hab; omega)
      rw [Int.card_Ioc] at h1
      omega
    have hmod : ∀ k : ℕ, modSum e w (range N) (fun n => stepWeight wt (j + 1) k n) =
        modSum e w ((range N).filter (fun n : ℕ => stepWeight wt (j + 1) k n ≠ 0)) (fun n => stepWeight wt (j + 1) k n) := by
      intro k
      funext ω
      unfold modSum
      rw [sum_filter]
      refine sum_congr rfl fun n _ => ?_
      split
      · rfl
      · rename_i h0; push Not at h0
        show stepWeight wt (j + 1) k n * _ = 0
        rw [h0, zero_mul]
    have hr : ∀ n ∈ range N, n < N := fun n hn => mem_range.1 hn
    refine ⟨fun q hq => h.sum_pow_integrable hr _ hq, ?_, ?_, ?_, ?_⟩
    · rw [h.sum_second hr]
      congr 1
      rw [sum_nat_window (f := fun n => stepWeight wt (j + 1) k n ^ 2) (s := k * 2 ^ (j + 1)) (A := A) (B := B)
        (fun n hn => by rw [hk n hn]; norm_num) (fun n hn => by rw [hW1 k n hn]; norm_num), ← hen']
      refine sum_congr rfl fun m _ => ?_
      rw [hsh, add_sub_cancel_right]
    · rw [h.sum_fourth hr]
      congr 1
      have inner : ∀ n : ℤ, ∑ m ∈ range N, stepWeight wt (j + 1) k n ^ 2 * stepWeight wt (j + 1) k (m : ℤ) ^ 2 * Real.exp (4 * ρ 0 + 4 * ρ (Int.natAbs (n - m))) =
          ∑ m ∈ Ioc A B, stepWeight wt (j + 1) k n ^ 2 * C m ^ 2 * Real.exp (4 * ρ 0 + 4 * ρ (Int.natAbs (n - (m + k * 2 ^ (j + 1))))) := by
        intro n
        rw [sum_nat_window (f := fun m => stepWeight wt (j + 1) k n ^ 2 * stepWeight wt (j + 1) k m ^ 2 * Real.exp (4 * ρ 0 + 4 * ρ (Int.natAbs (n - m))))
          (s := k * 2 ^ (j + 1)) (A := A) (B := B)
          (fun n hn => by rw [hk n hn]; ring) (fun n hn => by rw [hW1 k n hn]; ring)]
        refine sum_congr rfl fun m _ => ?_
        rw [hsh k (m + _), add_sub_cancel_right]
      refine (sum_congr rfl fun (n : ℕ) _ => inner (n : ℤ)).trans ?_
      rw [sum_nat_window (f := fun n => ∑ m ∈ Ioc A B, stepWeight wt (j + 1) k n ^ 2 * C m ^ 2 * Real.exp (4 * ρ 0 + 4 * ρ (Int.natAbs (n - (m + k * 2 ^ (j + 1))))))
          (s := k * 2 ^ (j + 1)) (A := A) (B := B)
          (fun n hn => by rw [hk n hn]; simp) (fun n hn => by rw [hW1 k n hn]; simp)]
      refine sum_congr rfl fun n _ => sum_congr rfl fun m _ => ?_
      rw [hsh k (n + _), add_sub_cancel_right, add_sub_add_right_eq_sub]
    · rw [hmod]
      refine (h.sum_eighth (hI k) _).2.trans ?_
      have hnn : 0 ≤ (∫ y, y ^ 8 ∂gaussianReal 0 1) * Real.exp (32 * ρ 0) := by
        have : 0 ≤ ∫ y, y ^ 8 ∂gaussianReal 0 1 := integral_nonneg fun y => by positivity
        positivity
      refine mul_le_mul_of_nonneg_right ?_ hnn
      have hcr : (((range N).filter (fun n : ℕ => stepWeight wt (j + 1) k n ≠ 0)).card : ℝ) ≤ W := by exact_mod_cast hcard
      refine mul_le_mul (pow_le_pow_left₀ (by positivity) hcr 7) ?_ (sum_nonneg fun n _ => by positivity) (by positivity)
      have : ∀ n ∈ (range N).filter (fun n : ℕ => stepWeight wt (j + 1) k n ≠ 0), stepWeight wt (j + 1) k n ^ 8 ≤ (W : ℝ) ^ 4 := by
        intro n _
        rw [show (8:ℕ) = 2 * 4 from rfl, pow_mul]
        refine pow_le_pow_left₀ (sq_nonneg _) ?_ 4
        rw [hsh]
        exact hsq _
      refine (sum_le_card_nsmul _ _ _ this).trans ?_
      rw [nsmul_eq_mul]
      exact mul_le_mul_of_nonneg_right hcr (by positivity)
    · intro l hl hT
      rw [hmod k, hmod l]
      have hp : (2:ℤ) ≤ 2 ^ (j + 1) := by
        rw [pow_succ]; have : (1:ℤ) ≤ 2 ^ j := one_le_pow₀ (by norm_num)
        omega
      have hfar : ∀ a ∈ (range N).filter (fun n : ℕ => stepWeight wt (j + 1) k n ≠ 0), ∀ b ∈ (range N).filter (fun n : ℕ => stepWeight wt (j + 1) l n ≠ 0),
          ⌈L⌉₊ ≤ Int.natAbs ((a : ℤ) - b) ∧ a ≠ b := by
        intro a ha b hb
        have h1 := hmem k a ha
        have h2 := hmem l b hb
        rw [mem_Ioc] at h1 h2
        have hd : (Int.natAbs ((k : ℤ) - l) : ℤ) * 2 ≤ |((k : ℤ) - l) * 2 ^ (j + 1)| := by
          rw [abs_mul, Int.natCast_natAbs, abs_of_pos (by positivity : (0:ℤ) < 2 ^ (j + 1))]
          exact mul_le_mul_of_nonneg_left hp (abs_nonneg _)
        have hmul : ((k : ℤ) - l) * 2 ^ (j + 1) = k * 2 ^ (j + 1) - l * 2 ^ (j + 1) := by ring
        rw [hmul] at hd
        generalize (k : ℤ) * 2 ^ (j + 1) = u at *
        generalize (l : ℤ) * 2 ^ (j + 1) = v at *
        generalize ⌈L⌉₊ = l' at *
        rcases abs_cases (u - v) with ⟨h3, _⟩ | ⟨h3, _⟩ <;> rw [h3] at hd <;> constructor <;> omega
      refine h.indep_sums (hI k) (hI l) (fun a ha b hb => (hfar a ha b hb).2) (fun a ha b hb => ?_) _ _
      rw [hρ, mrwLogCovariance, if_neg]
      push Not
      have h1 := (hfar a ha b hb).1
      have h2 : L ≤ (Int.natAbs ((a : ℤ) - b) : ℝ) := (Nat.le_ceil L).trans (by exact_mod_cast h1)
      linarith

end

end MFA
