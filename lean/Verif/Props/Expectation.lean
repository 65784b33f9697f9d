import Verif.Props.Rate
import Verif.Props.NoiseEstimation

/-!
# Property C136: bias and variance of the estimate of the first log-cumulant
-/

namespace MFA

universe u

open Classical Finset MeasureTheory ProbabilityTheory Filter

noncomputable section

variable {wt : Wavelet}

/-- The slope is a fixed combination, with coefficients at most one in absolute value, of the ordinates. -/
theorem slopeL_combination {ι : Type} (l : List ι) (x : ι → ℤ) (w : ι → ℝ) (hw : ∀ p ∈ l, 0 < w p) (hx : ∃ p ∈ l, ∃ p' ∈ l, x p ≠ x p') :
    ∃ a : Fin l.length → ℝ, (∀ i, |a i| ≤ 1) ∧ ∀ t : ι → ℝ,
      slopeL l (fun p => (x p : ℝ)) w (fun p => Fl.fin (t p)) = Fl.fin (∑ i : Fin l.length, a i * t l[i]) := by
  obtain ⟨p, hp, p', hp', hne⟩ := hx
  have hl : l ≠ [] := fun h => by rw [h] at hp; cases hp
  rcases slopeL_cases l hl (fun p => (x p : ℝ)) w (fun p hp => (hw p hp).le) with h | ⟨_, h⟩
  · have h2 := (slopeL_affine l (fun p => (x p : ℝ)) w hw ⟨p, hp, p', hp', by exact_mod_cast hne⟩ 0 0).1
    rw [(h _).1] at h2
    cases h2
  · refine ⟨rWS (fun i : Fin l.length => (x l[i] : ℝ)) (fun i => w l[i]), fun i => ?_, fun t => ?_⟩
    · refine rWS_le_one _ _ (fun i => (hw _ (List.getElem_mem _)).le) (fun i k => ?_) i
      have : |x l[i] - x l[k]| ≤ (x l[i] - x l[k]) ^ 2 := by
        rw [← sq_abs]
        rcases eq_or_ne (x l[i] - x l[k]) 0 with h0 | h0
        · rw [h0]; simp
        · have := Int.one_le_abs h0
          nlinarith
      exact_mod_cast this
    · rw [(h _).1, ← Fl.sum_fin]
      refine sum_congr rfl fun i _ => ?_
      rw [Fl.fin_mul]

/-- Combination of the sample means of a few scales. -/
theorem combination_moments {Ω : Type u} [MeasurableSpace Ω] {μ : Measure Ω} {n : ℕ} (a : Fin n → ℝ) (ha : ∀ i, |a i| ≤ 1) (X : Fin n → Ω → ℝ)
    (m v : Fin n → ℝ) (hI : ∀ i, Integrable (X i) μ) (hm : ∀ i, ∫ ω, X i ω ∂μ = m i) (hV : ∀ i, Integrable (fun ω => (X i ω - m i) ^ 2) μ)
    (hv : ∀ i, ∫ ω, (X i ω - m i) ^ 2 ∂μ ≤ v i) (b : ℝ) :
    Integrable (fun ω => b * ∑ i, a i * X i ω) μ ∧ ∫ ω, b * ∑ i, a i * X i ω ∂μ = b * ∑ i, a i * m i ∧
    Integrable (fun ω => (b * ∑ i, a i * X i ω - b * ∑ i, a i * m i) ^ 2) μ ∧
    ∫ ω, (b * ∑ i, a i * X i ω - b * ∑ i, a i * m i) ^ 2 ∂μ ≤ b ^ 2 * (n * ∑ i, v i) := by
  have hS : Integrable (fun ω => ∑ i, a i * X i ω) μ := integrable_finset_sum _ fun i _ => (hI i).const_mul _
  have hbound : ∀ ω, (b * ∑ i, a i * X i ω - b * ∑ i, a i * m i) ^ 2 ≤ b ^ 2 * (n * ∑ i, (X i ω - m i) ^ 2) := by
    intro ω
    have e : b * ∑ i, a i * X i ω - b * ∑ i, a i * m i = b * ∑ i, a i * (X i ω - m i) := by
      rw [← mul_sub, ← sum_sub_distrib]; congr 1; exact sum_congr rfl fun i _ => by ring
    rw [e, mul_pow]
    refine mul_le_mul_of_nonneg_left ?_ (sq_nonneg b)
    have h1 := sq_sum_le_card_mul_sum_sq (s := (Finset.univ : Finset (Fin n))) (f := fun i => a i * (X i ω - m i))
    refine h1.trans ?_
    rw [Finset.card_univ, Fintype.card_fin]
    refine mul_le_mul_of_nonneg_left (sum_le_sum fun i _ => ?_) (Nat.cast_nonneg n)
    rw [mul_pow]
    have : a i ^ 2 ≤ 1 := by rw [← sq_abs]; have := ha i; have := abs_nonneg (a i); nlinarith
    have := sq_nonneg (X i ω - m i)
    nlinarith
  have hD : Integrable (fun ω => b ^ 2 * (n * ∑ i, (X i ω - m i) ^ 2)) μ :=
    ((integrable_finset_sum _ fun i _ => hV i).const_mul _).const_mul _
  have hIsq : Integrable (fun ω => (b * ∑ i, a i * X i ω - b * ∑ i, a i * m i) ^ 2) μ := by
    refine hD.mono' ?_ (Eventually.of_forall fun ω => ?_)
    · exact ((hS.aestronglyMeasurable.const_mul b).sub aestronglyMeasurable_const).pow 2
    · rw [Real.norm_of_nonneg (sq_nonneg _)]; exact hbound ω
  refine ⟨hS.const_mul b, ?_, hIsq, ?_⟩
  · rw [integral_const_mul, integral_finset_sum _ fun i _ => (hI i).const_mul _]
    congr 1
    refine sum_congr rfl fun i _ => ?_
    rw [integral_const_mul, hm]
  · refine (integral_mono hIsq hD hbound).trans ?_
    rw [integral_const_mul, integral_const_mul, integral_finset_sum _ fun i _ => hV i]
    refine mul_le_mul_of_nonneg_left (mul_le_mul_of_nonneg_left (sum_le_sum fun i _ => hv i) (Nat.cast_nonneg n)) (sq_nonneg b)

/-- The random number `X` has an expectation within `b` of `v`, and a variance at most `s`. -/
def MeanVariance {Ω : Type u} [MeasurableSpace Ω] (μ : Measure Ω) (X : Ω → ℝ) (v b s : ℝ) : Prop :=
  Integrable X μ ∧ |∫ ω, X ω ∂μ - v| ≤ b ∧ Integrable (fun ω => (X ω - ∫ ω, X ω ∂μ) ^ 2) μ ∧ ∫ ω, (X ω - ∫ ω, X ω ∂μ) ^ 2 ∂μ ≤ s

/-- Bias and variance, for any function `G` with a scaling exponent. -/
theorem first_cumulant_moments {M : ℕ} (hM : VanishingMoments wt.dec_hi M) (hM1 : 1 ≤ M) (hwt : wt.Valid) {G : ℤ → ℝ}
    {h β : ℝ} (hK : ScalingKernel wt G h β) (g nm : ℝ) : ∃ B : ℝ, 0 ≤ B ∧ ∀ j1 j2 : ℕ, 1 ≤ j1 → j1 < j2 → ∃ C : ℝ,
    ∀ {Ω : Type u} [MeasurableSpace Ω] {μ : Measure Ω} {c : ℝ} {R N : ℕ} {x : Ω → List (Fin R → ℝ)} {w : Ω → WT R}, 0 < c →
      IncrementAnalysis μ wt G c g nm N x w → (∀ ω, j2 ≤ (w ω).wt_coefs.values.length) → ∀ (n : ℕ) (weighted : Bool) (r : Fin R), 0 < n →
      ∃ c1 : Ω → ℝ, (∀ᵐ ω ∂μ, ∃ d, Cumulants.make (w ω).wt_coefs n j1 j2 weighted = .ok d ∧
          ∃ row, d.log_cumulants[0]? = some row ∧ row r = Fl.fin (c1 ω)) ∧
        MeanVariance μ c1 (h + g + 1 - 1 / nm) (B * (2:ℝ) ^ (-(2 * β * j1))) (C / N) := by
  obtain ⟨τ, V, B0, hV, hB0, hvar, hlln⟩ := coefs_llnG.{u} hM hM1 hwt hK g nm
  have hρ1 : (2:ℝ) ^ (-(2 * β)) < 1 := Real.rpow_lt_one_of_one_lt_of_neg (by norm_num) (by have := hK.pos; linarith)
  have hρ : 0 < 1 - (2:ℝ) ^ (-(2 * β)) := by linarith
  have hlog : 0 < Real.log 2 := Real.log_pos (by norm_num)
  choose! D hD0 hD using fun (j : ℕ) (hj : 1 ≤ j) => hlln j (measurable_testF 0 1) (testF_even 0 1) (testF_sq (by norm_num) 1) hj
  refine ⟨B0 / 2 / (1 - (2:ℝ) ^ (-(2 * β))), by positivity, ?_⟩
  intro j1 j2 hj1 hj12
  obtain ⟨K, hKd⟩ : ∃ K : ℝ, K = 2 ^ (j2 + 1) + (2 ^ j2 * (4 * wt.dec_hi.length + 2) : ℕ) := ⟨_, rfl⟩
  obtain ⟨J, hJ⟩ : ∃ J : List ℤ, J = arange (j1 : ℤ) ((j2 : ℤ) + 1) := ⟨_, rfl⟩
  have hJm : ∀ j ∈ J, ∃ i : ℕ, j = i ∧ j1 ≤ i ∧ i ≤ j2 := by
    intro j hj
    rw [hJ, arange] at hj
    obtain ⟨i, hi, he⟩ := List.mem_map.1 hj
    rw [List.mem_range] at hi
    exact ⟨j1 + i, by rw [← he]; push_cast; ring, by omega, by omega⟩
  refine ⟨log2e ^ 2 * (J.length * ∑ i : Fin J.length, D J[i].toNat * K), ?_⟩
  intro Ω _ μ c R N x w hc hP hlen n weighted r hn
  have hR : R ≠ 0 := fun h0 => by subst h0; exact r.elim0
  have hμ : IsProbabilityMeasure μ := hP.prob
  obtain ⟨ω₀⟩ := nonempty_of_isProbabilityMeasure μ
  have hcard : ∀ j, 1 ≤ j → j ≤ j2 → 3 ≤ (interior N wt.dec_hi.length j).card := fun j h1 h2 =>
    hP.card hwt hR h1 (h2.trans (hlen ω₀))
  have hN : 0 < N := by
    rcases Nat.eq_zero_or_pos N with h0 | h0
    · have := hcard j1 hj1 hj12.le
      rw [h0] at this
      simp [interior] at this
    · exact h0
  have hNr : (0:ℝ) < N := by exact_mod_cast hN
  have hDK : ∀ j, 1 ≤ j → j ≤ j2 → D j / (interior N wt.dec_hi.length j).card ≤ D j * K / N := by
    intro j h1 h2
    have hc3 : (3:ℝ) ≤ (interior N wt.dec_hi.length j).card := by exact_mod_cast hcard j h1 h2
    rw [div_le_div_iff₀ (by linarith) hNr, mul_assoc]
    refine mul_le_mul_of_nonneg_left ?_ (hD0 j h1)
    by_cases hbig : 2 ^ j2 * (4 * wt.dec_hi.length + 2) ≤ N
    · have h3 := (interior_card_half (F := wt.dec_hi.length) h1 h2 hbig).1
      rw [div_le_iff₀ (by positivity)] at h3
      rw [hKd]
      have : (0:ℝ) ≤ ((2 ^ j2 * (4 * wt.dec_hi.length + 2) : ℕ) : ℝ) * (interior N wt.dec_hi.length j).card := by positivity
      linarith
    · have h3 : (N : ℝ) ≤ ((2 ^ j2 * (4 * wt.dec_hi.length + 2) : ℕ) : ℝ) := by exact_mod_cast (not_le.1 hbig).le
      have h4 : (0:ℝ) < 2 ^ (j2 + 1) := by positivity
      have h5 : (N : ℝ) ≤ K := by rw [hKd]; linarith
      have h6 : K * 1 ≤ K * (interior N wt.dec_hi.length j).card := mul_le_mul_of_nonneg_left (by linarith) (by linarith)
      linarith
  have hcoef := fun (j : ℕ) (h1 : 1 ≤ j) (h2 : j ≤ j2) => hvar hc hP hR (ω₀ := ω₀) h1 (h2.trans (hlen ω₀))
  -- the sample means of the scales
  obtain ⟨X, hX⟩ : ∃ X : ℕ → Ω → ℝ, X = fun j ω => Real.log √(c * τ j) +
    (∑ k ∈ interior N wt.dec_hi.length j, testF 0 1 ((w ω).wt_coefs.number j k r / √(c * τ j))) / (interior N wt.dec_hi.length j).card := ⟨_, rfl⟩
  obtain ⟨m, hm⟩ : ∃ m : ℕ → ℝ, m = fun j => Real.log √(c * τ j) + normalMoment 0 1 := ⟨_, rfl⟩
  obtain ⟨W, hW⟩ : ∃ W : ℤ → ℝ, W = fun j => if weighted then ((interior N wt.dec_hi.length j.toNat).card : ℝ) else 1 := ⟨_, rfl⟩
  have hWpos : ∀ j ∈ J, 0 < W j := by
    intro j hj
    obtain ⟨i, rfl, h1, h2⟩ := hJm j hj
    rw [hW]
    simp only [Int.toNat_natCast]
    split
    · exact_mod_cast (by have := hcard i (hj1.trans h1) h2; omega : 0 < (interior N wt.dec_hi.length i).card)
    · exact one_pos
  have hJ2 : ∃ p ∈ J, ∃ p' ∈ J, p ≠ p' := by
    refine ⟨j1, ?_, j2, ?_, by exact_mod_cast hj12.ne⟩ <;> rw [hJ, arange, List.mem_map]
    · exact ⟨0, by rw [List.mem_range]; omega, by simp⟩
    · exact ⟨j2 - j1, by rw [List.mem_range]; omega, by push_cast [hj12.le]; ring⟩
  obtain ⟨a, ha, hslope⟩ := slopeL_combination J (fun j => j) W hWpos hJ2
  have hidx : ∀ i : Fin J.length, 1 ≤ J[i].toNat ∧ J[i].toNat ≤ j2 := by
    intro i
    obtain ⟨k, hk, h1, h2⟩ := hJm J[i] (List.getElem_mem _)
    rw [hk, Int.toNat_natCast]
    exact ⟨hj1.trans h1, h2⟩
  have hmom := combination_moments (μ := μ) a ha (fun i => X J[i].toNat) (fun i => m J[i].toNat) (fun i => D J[i].toNat * K / N)
    (fun i => by
      rw [hX]
      exact (integrable_const _).add (hD _ (hidx i).1 hc hP (ω₀ := ω₀) ((hidx i).2.trans (hlen ω₀)) r).1)
    (fun i => by
      rw [hX, hm]
      obtain ⟨e1, e2, -⟩ := hD _ (hidx i).1 hc hP (ω₀ := ω₀) ((hidx i).2.trans (hlen ω₀)) r
      show ∫ ω, _ + _ ∂μ = _
      rw [integral_add (integrable_const _) e1, e2, integral_const, probReal_univ, one_smul]
      rfl)
    (fun i => by
      rw [hX, hm]
      obtain ⟨-, -, e3, -⟩ := hD _ (hidx i).1 hc hP (ω₀ := ω₀) ((hidx i).2.trans (hlen ω₀)) r
      refine e3.congr (Eventually.of_forall fun ω => ?_)
      show _ ^ 2 = (_ + _ - (_ + normalMoment 0 1)) ^ 2
      unfold normalMoment
      ring)
    (fun i => by
      rw [hX, hm]
      obtain ⟨-, -, -, e4⟩ := hD _ (hidx i).1 hc hP (ω₀ := ω₀) ((hidx i).2.trans (hlen ω₀)) r
      refine le_trans (le_of_eq ?_) (e4.trans (hDK _ (hidx i).1 (hidx i).2))
      refine integral_congr_ae (Eventually.of_forall fun ω => ?_)
      show (_ + _ - (_ + normalMoment 0 1)) ^ 2 = _ ^ 2
      unfold normalMoment
      ring)
    log2e
  obtain ⟨i1, i2, i3, i4⟩ := hmom
  refine ⟨fun ω => log2e * ∑ i : Fin J.length, a i * X J[i].toNat ω, ?_, i1, ?_, ?_, ?_⟩
  · -- the value returned
    have hnz : ∀ᵐ ω ∂μ, ∀ j ∈ Finset.range (j2 + 1), ∀ k ∈ interior N wt.dec_hi.length j, 1 ≤ j → (w ω).wt_coefs.number j k r ≠ 0 := by
      rw [Finset.eventually_all]
      intro j hj
      rw [Finset.eventually_all]
      intro k hk
      by_cases h1 : 1 ≤ j
      · have := ((hcoef j h1 (by rw [Finset.mem_range] at hj; omega)).2.2 r k hk).2
        rw [ae_iff]
        simpa [h1] using this
      · exact Eventually.of_forall fun ω h => absurd h h1
    filter_upwards [hnz] with ω hω
    obtain ⟨hreg, -, hent⟩ := hP.entries hwt ω
    have ha1 : (1:ℤ) ≤ (j1 : ℤ) := by exact_mod_cast hj1
    have ha2 : (j1 : ℤ) ≤ (j2 : ℤ) := by exact_mod_cast hj12.le
    have ha3 : (j2 : ℤ) ≤ ((w ω).wt_coefs.values.length : ℤ) := by exact_mod_cast hlen ω
    refine ⟨_, hreg.cumulants ha1 ha2 ha3 weighted n, fun r => cumF (w ω).wt_coefs j1 j2 weighted n 0 r * Fl.fin log2e, ?_, ?_⟩
    · simp [List.getElem?_map, List.getElem?_range hn]
    · show cumF (w ω).wt_coefs j1 j2 weighted n 0 r * Fl.fin log2e = _
      have hkeys := hreg.sub_keys ha1 ha2 ha3
      have hcum : cumF (w ω).wt_coefs j1 j2 weighted n 0 r = slopeL J (fun j => ((j : ℤ) : ℝ)) W (fun j => Fl.fin (X j.toNat ω)) := by
        unfold cumF
        rw [hJ, ← hkeys, slopeL_map]
        refine slopeL_congr (fun p _ => rfl) (fun p hp => ?_) (fun p hp => ?_)
        · obtain ⟨j, hj, -, -, hxs⟩ := hent p (sub_mem hp)
          obtain ⟨xs, h1, -, h3, -⟩ := hxs r
          rw [hW]
          unfold wtOf
          simp only [Function.comp_apply]
          rw [h1.count, h3, hj, Int.toNat_natCast]
        · obtain ⟨j, hj, hj1', -, hxs⟩ := hent p (sub_mem hp)
          obtain ⟨xs, h1, h2, h3, h4⟩ := hxs r
          have hjJ : p.1 ∈ J := by rw [hJ, ← hkeys]; exact List.mem_map.2 ⟨p, hp, rfl⟩
          obtain ⟨j', hj', -, hjle⟩ := hJm _ hjJ
          have : j' = j := by rw [hj] at hj'; exact_mod_cast hj'.symm
          subst this
          have hpos : ∀ y ∈ xs, y ≠ 0 := by
            intro y hy
            obtain ⟨k, hk, rfl⟩ := h4 y hy
            exact hω j' (Finset.mem_range.2 (by omega)) k hk hj1'
          have hxne : xs ≠ [] := by
            intro h0
            rw [h0] at h3
            have := hcard j' hj1' hjle
            rw [← h3] at this
            simp at this
          have hσ : √(c * τ j') ≠ 0 := (Real.sqrt_pos.2 (mul_pos hc (hcoef j' hj1' hjle).1)).ne'
          have hcr : ((interior N wt.dec_hi.length j').card : ℝ) ≠ 0 := by
            have := hcard j' hj1' hjle
            exact_mod_cast (by omega : (interior N wt.dec_hi.length j').card ≠ 0)
          unfold logAbsCol
          rw [cmColumn_getD (h1.logs hpos) (by simpa using hxne) hn, zero_add, kap_one (by simpa using hxne)]
          simp only [Function.comp_apply]
          rw [hj, Int.toNat_natCast, hX]
          congr 1
          unfold mean
          rw [h2 fun y => Real.log |y|, List.length_map, h3]
          show _ = _ + _
          rw [eq_comm, ← eq_sub_iff_add_eq', ← mul_div_cancel_right₀ (Real.log √(c * τ j')) hcr, ← sub_div]
          congr 1
          rw [mul_comm (Real.log _), ← nsmul_eq_mul, ← Finset.sum_const, ← Finset.sum_sub_distrib]
          refine Finset.sum_congr rfl fun k hk => ?_
          have hk0 := hω j' (Finset.mem_range.2 (by omega)) k hk hj1'
          unfold testF
          rw [Real.rpow_zero, one_mul, pow_one, abs_div, abs_of_nonneg (Real.sqrt_nonneg _), Real.log_div (abs_ne_zero.2 hk0) hσ]
      rw [hcum, hslope, Fl.fin_mul, mul_comm]
  · rw [i2]
    obtain ⟨z, hz, hzb⟩ := slopeL_near J (fun j => j) W hWpos hJ2 (fun j => Fl.fin (m j.toNat))
      (Real.log 2 * ((Real.logb 2 c + Real.logb 2 V) / 2) + normalMoment 0 1) (Real.log 2 * (coefExponent h g nm / 2))
      (fun j => 0 + Real.log 2 * B0 / 2 * (2:ℝ) ^ (-(2 * β * j)))
      (fun j hj => by
        obtain ⟨i, rfl, h1, h2⟩ := hJm j hj
        obtain ⟨t1, t2, -⟩ := hcoef i (hj1.trans h1) h2
        refine ⟨_, rfl, ?_⟩
        rw [hm, Int.toNat_natCast]
        have hs : Real.log √(c * τ i) = Real.log 2 * ((Real.logb 2 c + Real.logb 2 (τ i)) / 2) := by
          rw [Real.sqrt_eq_rpow, Real.log_rpow (mul_pos hc t1), Real.log_mul hc.ne' t1.ne']
          unfold Real.logb
          field_simp
        show |Real.log √(c * τ i) + normalMoment 0 1 - _| ≤ _
        rw [hs]
        have e : Real.log 2 * ((Real.logb 2 c + Real.logb 2 (τ i)) / 2) + normalMoment 0 1 - (Real.log 2 * ((Real.logb 2 c + Real.logb 2 V) / 2) +
            normalMoment 0 1 + Real.log 2 * (coefExponent h g nm / 2) * ((i : ℤ) : ℝ)) =
            Real.log 2 / 2 * (Real.logb 2 (τ i) - (Real.logb 2 V + i * coefExponent h g nm)) := by
          push_cast; ring
        rw [e, abs_mul, abs_of_pos (by positivity)]
        refine (mul_le_mul_of_nonneg_left t2 (by positivity)).trans (le_of_eq ?_)
        push_cast; ring)
    rw [hslope fun j => m j.toNat] at hz
    have hz' := (Fl.fin_inj _ _).1 hz
    rw [hJ] at hzb
    have hsum := hzb.trans (arange_sum_le (ε' := 0) hj12 hK.pos (by positivity))
    rw [mul_zero, zero_add] at hsum
    rw [hz']
    have hl2 : log2e = 1 / Real.log 2 := by
      unfold log2e Real.logb; rw [Real.log_exp]
    have e : log2e * z - (h + g + 1 - 1 / nm) = (z - Real.log 2 * (coefExponent h g nm / 2)) / Real.log 2 := by
      rw [hl2]; unfold coefExponent; field_simp
    rw [e, abs_div, abs_of_pos hlog, div_le_iff₀ hlog]
    refine hsum.trans (le_of_eq ?_)
    field_simp
  · rw [i2]; exact i3
  · rw [i2]
    refine i4.trans (le_of_eq ?_)
    rw [← Finset.sum_div]
    ring

/-- Bias and variance, for `mf_analysis_full`. -/
theorem first_cumulant_full {M : ℕ} (hM : VanishingMoments wt.dec_hi M) (hM1 : 1 ≤ M) (hwt : wt.Valid) {G : ℤ → ℝ}
    {h β : ℝ} (hK : ScalingKernel wt G h β) (g nm : ℝ) (hnm : nm ≠ 0) : ∃ B : ℝ, 0 ≤ B ∧ ∀ j1 j2 : ℕ, 1 ≤ j1 → j1 < j2 → ∃ C : ℝ,
    ∀ {Ω : Type u} [MeasurableSpace Ω] {μ : Measure Ω} {R N : ℕ} {x : Ω → List (Fin R → ℝ)} {A : ℕ → ℝ} {c : ℝ}, 0 < c →
      2 ^ (j2 + 1) * (wt.dec_hi.length + 1) ≤ N → GaussianArray μ N x (fun n m => A n + A m - c * G ((n : ℤ) - m)) →
      ∀ (p : PExp) (q : List ℝ) (n : ℕ) (weighted : Bool) (r : Fin R), p = .none ∨ (p = .inf ∧ 4 ≤ wt.dec_hi.length) → (2:ℝ) ∈ q → 0 < n →
      ∃ c1 : Ω → ℝ, (∀ᵐ ω ∂μ, ∃ d, mfAnalysisFull (asFloats (x ω)) j1 (some j2) nm g weighted wt p (some (.ndarray q)) n = .ok d ∧
          ∃ row, d.dwt.cumulants.log_cumulants[0]? = some row ∧ row r = Fl.fin (c1 ω)) ∧
        MeanVariance μ c1 (h + g + 1 - 1 / nm) (B * (2:ℝ) ^ (-(2 * β * j1))) (C / N) := by
  obtain ⟨B, hB, hall⟩ := first_cumulant_moments.{u} hM hM1 hwt hK g nm
  refine ⟨B, hB, fun j1 j2 hj1 hj12 => ?_⟩
  obtain ⟨C, hC⟩ := hall j1 j2 hj1 hj12
  refine ⟨C, ?_⟩
  intro Ω _ μ R N x A c hc hN hG p q n weighted r hp h2 hn
  have hR : R ≠ 0 := fun h0 => by subst h0; exact r.elim0
  have hN1 : 1 ≤ N := le_trans (Nat.mul_pos (by positivity) (by omega)) hN
  have hne' : ∀ ω, asFloats (x ω) ≠ [] := by
    intro ω h0
    have h1 := congrArg List.length h0
    simp only [asFloats, List.length_map, List.length_nil] at h1
    rw [hG.length ω] at h1
    omega
  choose w hw hfull using fun ω => C48_total (asFloats (x ω)) p (hp.imp id (·.1)) wt j1 (some (j2 : ℝ)) g nm weighted (some (.ndarray q)) n hR (hne' ω) hnm
  have hlong : ∀ ω, (w ω).j2_eff = j2 ∧ j2 ≤ (w ω).wt_coefs.values.length := by
    intro ω
    have h0 := hw ω
    rw [asFloats_sampled (hG.length ω)] at h0
    exact long_enough hR hwt (hp.imp id (·.2)) (by omega) hN h0
  have hP : IncrementAnalysis μ wt G c g nm N x w := ⟨⟨A, hG⟩, p, j1, some (j2 : ℝ), weighted, hw⟩
  obtain ⟨c1, h1, hmv⟩ := hC hc hP (fun ω => (hlong ω).2) n weighted r hn
  refine ⟨c1, ?_, hmv⟩
  filter_upwards [h1] with ω hω
  obtain ⟨dc, hdc, row, hrow, hr⟩ := hω
  obtain ⟨d, hd, -⟩ := hfull ω (by exact_mod_cast hj1) (by rw [(hlong ω).1]; exact_mod_cast hj12.le) h2
  refine ⟨d, hd, row, ?_, hr⟩
  unfold mfAnalysisFull at hd
  rw [hw ω] at hd
  simp only at hd
  rw [C47_bundle, (hlong ω).1] at hd
  obtain ⟨⟨-, b2, -⟩, -⟩ := hd
  rw [hdc] at b2
  rw [← Except.ok.inj b2]
  exact hrow

/-- **C136, power law signals**: `mf_analysis_full` estimates the first log-cumulant, which is `H` (shifted by `gamint` and the normalisation when they are
not the default), by a number that has an expectation and a variance; the bias is at most `B 2^(-2 H j1)` whatever the length of the signal and the number of
realisations, and the variance at most `C / N`. -/
theorem C136_power_law {M : ℕ} (hM : VanishingMoments wt.dec_hi M) (hM1 : 1 ≤ M) (hwt : wt.Valid) (ho : OrthonormalBank wt) {H : ℝ}
    (h0 : 0 < H) (h1 : H < 1) (hH : 4 * H - 4 * M < -1) (g nm : ℝ) (hnm : nm ≠ 0) :
    ∃ B : ℝ, 0 ≤ B ∧ ∀ j1 j2 : ℕ, 1 ≤ j1 → j1 < j2 → ∃ C : ℝ,
    ∀ {Ω : Type u} [MeasurableSpace Ω] {μ : Measure Ω} {R N : ℕ} {x : Ω → List (Fin R → ℝ)} {A : ℕ → ℝ} {c : ℝ}, 0 < c →
      2 ^ (j2 + 1) * (wt.dec_hi.length + 1) ≤ N → GaussianArray μ N x (fun n m => A n + A m - c * |(n : ℝ) - m| ^ (2 * H)) →
      ∀ (p : PExp) (q : List ℝ) (n : ℕ) (weighted : Bool) (r : Fin R), p = .none ∨ (p = .inf ∧ 4 ≤ wt.dec_hi.length) → (2:ℝ) ∈ q → 0 < n →
      ∃ c1 : Ω → ℝ, (∀ᵐ ω ∂μ, ∃ d, mfAnalysisFull (asFloats (x ω)) j1 (some j2) nm g weighted wt p (some (.ndarray q)) n = .ok d ∧
          ∃ row, d.dwt.cumulants.log_cumulants[0]? = some row ∧ row r = Fl.fin (c1 ω)) ∧
        MeanVariance μ c1 (H + g + 1 - 1 / nm) (B * (2:ℝ) ^ (-(2 * H * j1))) (C / N) := by
  obtain ⟨B, hB, hall⟩ := first_cumulant_full.{u} hM hM1 hwt (powerLaw_kernel hM hM1 hwt ho h0 h1 hH) g nm hnm
  refine ⟨B, hB, fun j1 j2 h3 h4 => ?_⟩
  obtain ⟨C, hC⟩ := hall j1 j2 h3 h4
  refine ⟨C, ?_⟩
  intro Ω _ μ R N x A c hc hN hG
  have e : (fun n m : ℕ => A n + A m - c * |(((n : ℤ) - m : ℤ) : ℝ)| ^ (2 * H)) = fun n m : ℕ => A n + A m - c * |(n : ℝ) - m| ^ (2 * H) := by
    funext n m; push_cast; rfl
  refine hC hc hN (A := A) ?_
  rw [e]; exact hG

/-- **C136, end to end**: simulate with `fbm`, analyse with `mf_analysis_full`: the first log-cumulant has expectation `H` up to `B 2^(-2 H j1)` for every
length `N`, and variance at most `C / N`. -/
theorem C136_fbm {M : ℕ} (hM : VanishingMoments wt.dec_hi M) (hM1 : 1 ≤ M) (hwt : wt.Valid) (ho : OrthonormalBank wt) {H : ℝ}
    (h0 : 0 < H) (h1 : H < 1) (hH : 4 * H - 4 * M < -1) : ∃ B : ℝ, 0 ≤ B ∧ ∀ j1 j2 : ℕ, 1 ≤ j1 → j1 < j2 → ∃ C : ℝ,
    ∀ {Ω : Type u} [MeasurableSpace Ω] {μ : Measure Ω} {gen : Ω → ℕ → ℝ}, StdNormal μ gen →
    ∀ {N R : ℕ} {sigma : ℝ} {dt : Option ℝ} (z0 : Option (CArr R)), 2 ^ (j2 + 1) * (wt.dec_hi.length + 1) ≤ N → sigma ≠ 0 →
      (∀ d, dt = some d → 0 ≤ d) → R ≠ 0 →
      ∃ x : Ω → RArr R, Returns (fbm R N H sigma dt "cme" z0) gen x ∧
      ∀ (p : PExp) (q : List ℝ) (n : ℕ) (weighted : Bool) (r : Fin R), p = .none ∨ (p = .inf ∧ 4 ≤ wt.dec_hi.length) → (2:ℝ) ∈ q → 0 < n →
      ∃ c1 : Ω → ℝ, (∀ᵐ ω ∂μ, ∃ d, mfAnalysisFull (asFloats (x ω)) j1 (some j2) 1 0 weighted wt p (some (.ndarray q)) n = .ok d ∧
          ∃ row, d.dwt.cumulants.log_cumulants[0]? = some row ∧ row r = Fl.fin (c1 ω)) ∧
        MeanVariance μ c1 H (B * (2:ℝ) ^ (-(2 * H * j1))) (C / N) := by
  obtain ⟨B, hB, hall⟩ := C136_power_law.{u} hM hM1 hwt ho h0 h1 hH 0 1 one_ne_zero
  refine ⟨B, hB, fun j1 j2 hj1 hj12 => ?_⟩
  obtain ⟨C, hC⟩ := hall j1 j2 hj1 hj12
  refine ⟨C, ?_⟩
  intro Ω _ μ gen hg N R sigma dt z0 hN hs hdt hR
  have h4 : 2 ≤ N := le_trans (by
    have : 2 ≤ 2 ^ (j2 + 1) := by rw [pow_succ]; have := Nat.one_le_two_pow (n := j2); omega
    exact this.trans (Nat.le_mul_of_pos_right _ (by omega))) hN
  obtain ⟨x, hx, hG, -⟩ := C85_fbm (R := R) (sigma := sigma) z0 h0 h1.le h4 hdt hR hg
  have hstep := (fgnDt_eq (by omega : N ≠ 0) hdt).2
  rw [fbm_powerLaw H sigma hstep.le] at hG
  refine ⟨x, hx, fun p q n weighted r hp h2 hn => ?_⟩
  have := hC (by positivity) hN hG p q n weighted r hp h2 hn
  rwa [show H + 0 + 1 - 1 / 1 = H by ring] at this

/-- **C136, noise**: simulate with `fgn`, analyse with `mf_analysis_full`: the first log-cumulant has expectation `H - 1` up to `B 2^(-2 β j1)` for every
length `N`, and variance at most `C / N`. -/
theorem C136_fgn {M : ℕ} (hM : VanishingMoments wt.dec_hi M) (hM1 : 1 ≤ M) (hwt : wt.Valid) (ho : OrthonormalBank wt) {H : ℝ}
    (h0 : 0 < H) (h1 : H < 1) (hr : 1 / 2 ≤ H ∨ RegularWavelet wt) : ∃ β B : ℝ, 0 < β ∧ 0 ≤ B ∧ ∀ j1 j2 : ℕ, 1 ≤ j1 → j1 < j2 → ∃ C : ℝ,
    ∀ {Ω : Type u} [MeasurableSpace Ω] {μ : Measure Ω} {gen : Ω → ℕ → ℝ}, StdNormal μ gen →
    ∀ {N R : ℕ} {sigma : ℝ} {dt : Option ℝ} (z0 : Option (CArr R)), 2 ^ (j2 + 1) * (wt.dec_hi.length + 1) ≤ N → sigma ≠ 0 →
      (∀ d, dt = some d → 0 ≤ d) → R ≠ 0 →
      ∃ x : Ω → RArr R, Returns (fgn R N H sigma dt "cme" z0) gen x ∧
      ∀ (p : PExp) (q : List ℝ) (n : ℕ) (weighted : Bool) (r : Fin R), p = .none ∨ (p = .inf ∧ 4 ≤ wt.dec_hi.length) → (2:ℝ) ∈ q → 0 < n →
      ∃ c1 : Ω → ℝ, (∀ᵐ ω ∂μ, ∃ d, mfAnalysisFull (asFloats (x ω)) j1 (some j2) 1 0 weighted wt p (some (.ndarray q)) n = .ok d ∧
          ∃ row, d.dwt.cumulants.log_cumulants[0]? = some row ∧ row r = Fl.fin (c1 ω)) ∧
        MeanVariance μ c1 (H - 1) (B * (2:ℝ) ^ (-(2 * β * j1))) (C / N) := by
  obtain ⟨β, hK⟩ := noise_kernel hM hM1 hwt ho h0 h1 hr
  obtain ⟨B, hB, hall⟩ := first_cumulant_full.{u} hM hM1 hwt hK 0 1 one_ne_zero
  refine ⟨β, B, hK.pos, hB, fun j1 j2 hj1 hj12 => ?_⟩
  obtain ⟨C, hC⟩ := hall j1 j2 hj1 hj12
  refine ⟨C, ?_⟩
  intro Ω _ μ gen hg N R sigma dt z0 hN hs hdt hR
  have h4 : 2 ≤ N := le_trans (by
    have : 2 ≤ 2 ^ (j2 + 1) := by rw [pow_succ]; have := Nat.one_le_two_pow (n := j2); omega
    exact this.trans (Nat.le_mul_of_pos_right _ (by omega))) hN
  obtain ⟨x, hx, hG, -⟩ := C85_fgn (R := R) (sigma := sigma) z0 h0 h1.le h4 hdt hR hg
  have hstep := (fgnDt_eq (by omega : N ≠ 0) hdt).2
  refine ⟨x, hx, fun p q n weighted r hp h2 hn => ?_⟩
  have e : (fun n m : ℕ => fgnCovariance H sigma (effStep dt N) (n * effStep dt N) (m * effStep dt N)) =
      fun n m : ℕ => (0:ℝ) + 0 - sigma ^ 2 * effStep dt N ^ (2 * H) * -noiseKernel (2 * H) ((n : ℤ) - m) := by
    funext n m
    rw [fgn_noiseKernel H sigma hstep.le]
    ring
  rw [e] at hG
  have := hC (A := fun _ => 0) (by positivity) hN hG p q n weighted r hp h2 hn
  rwa [show H - 1 + 0 + 1 - 1 / 1 = H - 1 by ring] at this

/-! The hypotheses are met: `db2`, every `0 < H < 1`, scales 3 to 7, two realisations. -/
example (H : ℝ) (h0 : 0 < H) (h1 : H < 1) : ∃ B C : ℝ, 0 ≤ B ∧ ∃ (Ω : Type) (_ : MeasurableSpace Ω) (μ : Measure Ω)
    (gen : Ω → ℕ → ℝ), StdNormal μ gen ∧ ∀ N, 2 ^ 8 * 5 ≤ N → ∃ x : Ω → RArr 2, Returns (fbm 2 N H 1 none "cme" none) gen x ∧
    ∃ c1 : Ω → ℝ, (∀ᵐ ω ∂μ, ∃ d, mfAnalysisFull (asFloats (x ω)) (3 : ℕ) (some (7 : ℕ)) 1 0 true db2 .inf (some (.ndarray [2])) 2 = .ok d ∧
        ∃ row, d.dwt.cumulants.log_cumulants[0]? = some row ∧ row 0 = Fl.fin (c1 ω)) ∧
      MeanVariance μ c1 H (B * (2:ℝ) ^ (-(2 * H * (3 : ℕ)))) (C / N) := by
  obtain ⟨hv, ho, hm⟩ := db2_orthonormal
  obtain ⟨B, hB, h⟩ := C136_fbm.{0} hm (by norm_num) hv ho h0 h1 (by push_cast; linarith)
  obtain ⟨C, hC⟩ := h 3 7 (by norm_num) (by norm_num)
  obtain ⟨Ω, m, μ, gen, hg⟩ := exists_stdNormal
  refine ⟨B, C, hB, Ω, m, μ, gen, hg, fun N hN => ?_⟩
  obtain ⟨x, hx, hx'⟩ := hC hg (N := N) (R := 2) (sigma := 1) (dt := none) none (by simpa [db2] using hN) one_ne_zero (by intro d hd; cases hd) (by norm_num)
  exact ⟨x, hx, hx' .inf [2] 2 true 0 (Or.inr ⟨rfl, by simp [db2]⟩) (by simp) (by norm_num)⟩

end

end MFA
