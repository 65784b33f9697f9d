import Verif.Lemmas.MrwLln
import Verif.Lemmas.WideRange
import Verif.Props.HurstEstimation

/-!
# Property C129: the analysis recovers the intermittency of simulated multifractal random walks
-/

namespace MFA

universe u

open Classical Finset MeasureTheory ProbabilityTheory

noncomputable section

variable {wt : Wavelet}

theorem logb_near {ε : ℝ} (hε : 0 < ε) : ∃ θ > 0, ∀ m y : ℝ, 0 < m → |y - m| < θ * m → 0 < y ∧ |Real.logb 2 y - Real.logb 2 m| ≤ ε := by
  have hc : ContinuousAt (Real.logb 2) 1 := (Real.continuousAt_log one_ne_zero).div_const _
  obtain ⟨θ, hθ, h⟩ := Metric.continuousAt_iff.1 hc ε hε
  refine ⟨min θ 1, lt_min hθ one_pos, fun m y hm hy => ?_⟩
  have h1 : |y / m - 1| < min θ 1 := by
    rw [show y / m - 1 = (y - m) / m by field_simp, abs_div, abs_of_pos hm, div_lt_iff₀ hm]; exact hy
  have hy0 : 0 < y / m := by
    have := (abs_lt.1 (h1.trans_le (min_le_right _ _))).1
    linarith
  have hyp : 0 < y := by
    have := mul_pos hy0 hm
    rwa [div_mul_cancel₀ _ hm.ne'] at this
  refine ⟨hyp, ?_⟩
  have h2 := h (x := y / m) (by rw [Real.dist_eq]; exact h1.trans_le (min_le_left _ _))
  rw [Real.dist_eq, Real.logb_one, sub_zero, Real.logb_div hyp.ne' hm.ne'] at h2
  exact h2.le

/-- Scaling of the moments of the coefficients. -/
theorem moment_scaling (hwt : wt.Valid) (ho : OrthonormalBank wt) {M : ℕ} (hM : VanishingMoments wt.dec_hi M) (hM1 : 1 ≤ M) :
    ∃ (V B : ℝ) (C : ℝ → ℝ), 0 < V ∧ 0 ≤ B ∧ (∀ lam, 0 ≤ C lam) ∧ ∀ lam L : ℝ, 0 < L → ∀ i : ℕ, 0 < stepEnergy wt i ∧
      |Real.logb 2 (momentOf wt lam L (fun _ => 0) 2 i) - (Real.logb 2 (V * Real.exp (2 * mrwLogCovariance lam L 0)) + ((i : ℝ) + 1) * 2)| ≤ B * (2:ℝ) ^ (-((i : ℝ) + 1)) ∧
      ∀ m4 D T, DetailMoments.{u} wt lam L i m4 D T → 4 * lam ^ 2 < 1 → ((2 * wt.dec_hi.length * 2 ^ i : ℕ) : ℝ) ≤ L → 0 < m4 ∧
        |Real.logb 2 m4 - (Real.logb 2 (3 * L ^ (8 * lam ^ 2) * V ^ 2 * (wt.dec_hi.length : ℝ) ^ (-(4 * lam ^ 2))) + ((i : ℝ) + 1) * (4 - 4 * lam ^ 2))| ≤ C lam := by
  obtain ⟨-, ⟨V, B, hV, hB, hk⟩, -⟩ := powerLaw_kernel hM hM1 hwt ho (H := 1 / 2) (by norm_num) (by norm_num)
    (by have : (1:ℝ) ≤ M := by exact_mod_cast hM1
        linarith)
  obtain ⟨c, hc, hlow⟩ := dblDetail_lower hM hM1 (orthonormal_sum ho hM hM1) (orthonormal_hi_ne ho) (a := 1) one_pos (by norm_num)
  simp only [show (2:ℝ) * (1 / 2) = 1 by norm_num] at hk
  have hF : (0:ℝ) < wt.dec_hi.length := by exact_mod_cast hwt.pos
  have hlog2 : Real.logb 2 2 = 1 := Real.logb_self_eq_one (by norm_num)
  obtain ⟨c', hc'd⟩ : ∃ c', c' = c / (8 * (wt.dec_hi.length : ℝ) ^ 2) := ⟨_, rfl⟩
  have hc' : 0 < c' := by rw [hc'd]; positivity
  refine ⟨V / 2, B, fun lam => 2 * B + |Real.logb 2 (2 / (c' * (1 - 4 * lam ^ 2)))|, by positivity, hB, fun lam => by positivity, ?_⟩
  intro lam L hL i
  obtain ⟨k1, k2⟩ := hk i
  have hQ : 0 < stepEnergy wt i := by unfold stepEnergy; linarith
  have hQl : Real.logb 2 (stepEnergy wt i) = Real.logb 2 (-dblDetail wt (fun n => |(n : ℝ)| ^ (1:ℝ)) i) - 1 := by
    unfold stepEnergy
    rw [Real.logb_div k1.ne' two_ne_zero, hlog2]
  have hVl : Real.logb 2 (V / 2) = Real.logb 2 V - 1 := by rw [Real.logb_div hV.ne' two_ne_zero, hlog2]
  have hE : |Real.logb 2 (stepEnergy wt i) - (Real.logb 2 (V / 2) + ((i : ℝ) + 1) * 2)| ≤ B * (2:ℝ) ^ (-((i : ℝ) + 1)) := by
    rw [hQl, hVl]
    refine le_trans (le_of_eq ?_) (k2.trans (le_of_eq ?_))
    · congr 1; ring
    · congr 2; ring
  refine ⟨hQ, ?_, ?_⟩
  · rw [momentOf, if_pos rfl, Real.logb_mul (Real.exp_pos _).ne' hQ.ne', Real.logb_mul (by positivity) (Real.exp_pos _).ne']
    refine le_trans (le_of_eq ?_) hE
    congr 1; ring
  · intro m4 D T hm hlam hWL
    have hcW : c' * ((2 * wt.dec_hi.length * 2 ^ i : ℕ) : ℝ) ^ 2 ≤ stepEnergy wt i := by
      have := hlow i
      unfold stepEnergy
      rw [hc'd]
      have e1 : ((2:ℝ) ^ (1 + (1:ℝ))) ^ i = (2 ^ i) ^ 2 := by
        rw [show (1:ℝ) + 1 = ((2:ℕ) : ℝ) by norm_num, Real.rpow_natCast, ← pow_mul, ← pow_mul, mul_comm]
      rw [e1] at this
      rw [le_div_iff₀ (by norm_num : (0:ℝ) < 2)]
      refine le_trans (le_of_eq ?_) this
      push_cast
      field_simp
      ring
    obtain ⟨b1, b2⟩ := hm.fourth c' hc' hcW hlam hWL
    have hp1 : 0 < 3 * L ^ (8 * lam ^ 2) := by positivity
    have hWp : (0:ℝ) < ((2 * wt.dec_hi.length * 2 ^ i : ℕ) : ℝ) := by
      push_cast; positivity
    have hp2 : 0 < stepEnergy wt i ^ 2 * ((2 * wt.dec_hi.length * 2 ^ i : ℕ) : ℝ) ^ (-(4 * lam ^ 2)) := by positivity
    have hm0 : 0 < m4 := (mul_pos hp1 hp2).trans_le b1
    refine ⟨hm0, ?_⟩
    have hK : 0 < 2 / (c' * (1 - 4 * lam ^ 2)) := by
      have : 0 < 1 - 4 * lam ^ 2 := by linarith
      positivity
    have l1 := (Real.logb_le_logb (by norm_num : (1:ℝ) < 2) (mul_pos hp1 hp2) hm0).2 b1
    have l2 := (Real.logb_le_logb (by norm_num : (1:ℝ) < 2) hm0 (mul_pos hK (mul_pos hp1 hp2))).2 b2
    rw [Real.logb_mul hK.ne' (mul_pos hp1 hp2).ne'] at l2
    have hW2 : ((2 * wt.dec_hi.length * 2 ^ i : ℕ) : ℝ) = wt.dec_hi.length * (2:ℝ) ^ ((i : ℝ) + 1) := by
      push_cast
      rw [Real.rpow_add (by norm_num), Real.rpow_natCast, Real.rpow_one]; ring
    have hlo : Real.logb 2 (3 * L ^ (8 * lam ^ 2) * (stepEnergy wt i ^ 2 * ((2 * wt.dec_hi.length * 2 ^ i : ℕ) : ℝ) ^ (-(4 * lam ^ 2)))) =
        Real.logb 2 (3 * L ^ (8 * lam ^ 2) * (V / 2) ^ 2 * (wt.dec_hi.length : ℝ) ^ (-(4 * lam ^ 2))) + ((i : ℝ) + 1) * (4 - 4 * lam ^ 2) +
          2 * (Real.logb 2 (stepEnergy wt i) - (Real.logb 2 (V / 2) + ((i : ℝ) + 1) * 2)) := by
      have s1 : Real.logb 2 (stepEnergy wt i ^ 2 * ((2 * wt.dec_hi.length * 2 ^ i : ℕ) : ℝ) ^ (-(4 * lam ^ 2))) =
          2 * Real.logb 2 (stepEnergy wt i) - 4 * lam ^ 2 * (Real.logb 2 wt.dec_hi.length + ((i : ℝ) + 1)) := by
        rw [Real.logb_mul (by positivity) (by positivity), Real.logb_rpow_eq_mul_logb_of_pos hWp, Real.logb_pow, hW2,
          Real.logb_mul hF.ne' (by positivity), Real.logb_rpow (by norm_num) (by norm_num)]
        push_cast; ring
      have s2 : Real.logb 2 (3 * L ^ (8 * lam ^ 2) * (V / 2) ^ 2 * (wt.dec_hi.length : ℝ) ^ (-(4 * lam ^ 2))) =
          Real.logb 2 (3 * L ^ (8 * lam ^ 2)) + 2 * Real.logb 2 (V / 2) - 4 * lam ^ 2 * Real.logb 2 wt.dec_hi.length := by
        rw [Real.logb_mul (by positivity) (by positivity), Real.logb_mul hp1.ne' (by positivity), Real.logb_rpow_eq_mul_logb_of_pos hF, Real.logb_pow]
        push_cast; ring
      rw [Real.logb_mul hp1.ne' hp2.ne', s1, s2]
      ring
    have hB1 : B * (2:ℝ) ^ (-((i : ℝ) + 1)) ≤ B := by
      refine mul_le_of_le_one_right hB (Real.rpow_le_one_of_one_le_of_nonpos (by norm_num) ?_)
      have : (0:ℝ) ≤ i := by positivity
      linarith
    have hE' := abs_le.1 (hE.trans hB1)
    have h3 := le_abs_self (Real.logb 2 (2 / (c' * (1 - 4 * lam ^ 2))))
    have h4 := abs_nonneg (Real.logb 2 (2 / (c' * (1 - 4 * lam ^ 2))))
    rw [hlo] at l1 l2
    rw [abs_le]
    constructor <;> linarith [hE'.1, hE'.2]

/-- What the analysis of a long multifractal random walk with `H = 1/2` gives, for the structure functions of its wavelet coefficients. -/
theorem mrw_estimates (hwt : wt.Valid) (ho : OrthonormalBank wt) {M : ℕ} (hM : VanishingMoments wt.dec_hi M) (hM1 : 1 ≤ M) :
    ∃ (B : ℝ) (C : ℝ → ℝ), 0 ≤ B ∧ (∀ lam, 0 ≤ C lam) ∧ ∀ lam L : ℝ, 0 < L → ∀ j1 j2 : ℕ, 1 ≤ j1 → j1 < j2 → ∀ ε δ : ℝ, 0 < ε → 0 < δ → ∃ N₀ : ℕ,
    ∀ {Ω : Type u} [MeasurableSpace Ω] {μ : Measure Ω} {R N : ℕ} {x e v : Ω → List (Fin R → ℝ)} {w : Ω → WT R} {sigma : ℝ} {p : PExp} {b1 : ℤ}
      {b2 : Option ℝ} {wtd : Bool}, MrwLaw μ N (1 / 2) lam L sigma x e v → sigma ≠ 0 → (∀ ω, (x ω).length = N) →
      (∀ ω, waveletAnalysis (asFloats (x ω)) p wt b1 b2 0 1 wtd = .ok (w ω)) → N₀ ≤ N → (∀ ω, j2 ≤ (w ω).wt_coefs.values.length) → ∀ r,
      μ {ω | ¬ ((∀ weighted, Near (zetaF (w ω).wt_coefs j1 j2 weighted (.real 2) r) 1 (B * (2:ℝ) ^ (-(j1 : ℝ)) + ε)) ∧
        (4 * lam ^ 2 < 1 → (wt.dec_hi.length : ℝ) * 2 ^ j2 ≤ L →
          Near (zetaF (w ω).wt_coefs j1 j2 false (.real 4) r) (2 - 4 * lam ^ 2) (C lam / (j2 - j1) + ε)))} ≤ ENNReal.ofReal δ := by
  obtain ⟨V, B, C, hV, hB, hC, hsc⟩ := moment_scaling.{u} hwt ho hM hM1
  refine ⟨B / (1 - (2:ℝ) ^ (-(2 * (1 / 2 : ℝ)))), fun lam => 6 * C lam, ?_, fun lam => by have := hC lam; positivity, ?_⟩
  · have : (2:ℝ) ^ (-(2 * (1 / 2 : ℝ))) < 1 := Real.rpow_lt_one_of_one_lt_of_neg (by norm_num) (by norm_num)
    exact div_nonneg hB (by linarith)
  intro lam L hL j1 j2 hj1 hj12 ε δ hε hδ
  choose m4 D T hm using fun i => exists_moments.{u} hwt ho hM hM1 lam L hL i
  have hnum : (0:ℝ) < (j2:ℝ) - j1 := by
    have : (j1 : ℝ) < j2 := by exact_mod_cast hj12
    linarith
  have hnum1 : (1:ℝ) ≤ (j2:ℝ) - j1 := by
    have : ((j1 + 1 : ℕ) : ℝ) ≤ j2 := by exact_mod_cast hj12
    push_cast at this; linarith
  obtain ⟨ε', hε'd⟩ : ∃ ε', ε' = min (ε / ((j2:ℝ) - j1 + 1)) (ε / 6) := ⟨_, rfl⟩
  have hε' : 0 < ε' := by rw [hε'd]; exact lt_min (by positivity) (by positivity)
  have hε1 : ε' * ((j2:ℝ) - j1 + 1) ≤ ε := by
    rw [← le_div_iff₀ (by positivity), hε'd]; exact min_le_left _ _
  have hε2 : 6 * ε' ≤ ε := by
    have : ε' ≤ ε / 6 := by rw [hε'd]; exact min_le_right _ _
    linarith
  obtain ⟨θ, hθ, hlog⟩ := logb_near hε'
  obtain ⟨N₀, hN₀⟩ := mrw_lln hwt hM hM1 hm j2 (fun q i => if 0 < momentOf wt lam L m4 q i then θ * momentOf wt lam L m4 q i else 1)
    (fun q i => by
      split
      · rename_i h; exact mul_pos hθ h
      · exact one_pos) δ hδ
  refine ⟨N₀, ?_⟩
  intro Ω _ μ R N x e v w sigma p b1 b2 wtd hlaw hs hl hw hN hJ r
  obtain ⟨κ, hκ, hμ⟩ := hN₀ hlaw hs hl hw hN hJ r
  refine (measure_mono ?_).trans hμ
  intro ω hω
  simp only [Set.mem_ofPred_eq] at hω ⊢
  intro htyp
  apply hω
  have h0 : waveletAnalysis (sampled N fun r t => ((x ω).getD t.toNat fun _ => 0) r) p wt b1 b2 0 1 wtd = .ok (w ω) := by
    rw [← asFloats_sampled (hl ω)]; exact hw ω
  obtain ⟨hreg, -, -⟩ := analysis_entries hwt h0
  have ha1 : (1:ℤ) ≤ (j1 : ℤ) := by exact_mod_cast hj1
  have ha2 : (j1 : ℤ) ≤ (j2 : ℤ) := by exact_mod_cast hj12.le
  have ha3 : (j2 : ℤ) ≤ ((w ω).wt_coefs.values.length : ℤ) := by exact_mod_cast hJ ω
  have hkeys := hreg.sub_keys ha1 ha2 ha3
  have hkey : ∀ p ∈ subR (w ω).wt_coefs j1 j2, ∃ i : ℕ, p.1 = ((i + 1 : ℕ) : ℤ) ∧ j1 ≤ i + 1 ∧ i < j2 := by
    intro p hp
    have : p.1 ∈ arange (j1 : ℤ) ((j2 : ℤ) + 1) := by rw [← hkeys]; exact List.mem_map.2 ⟨p, hp, rfl⟩
    unfold arange at this
    obtain ⟨i, hi, he⟩ := List.mem_map.1 this
    rw [List.mem_range] at hi
    exact ⟨j1 + i - 1, by rw [← he]; omega, by omega, by omega⟩
  have htwo := hreg.sub_two ha1 ha2 ha3 (by exact_mod_cast hj12)
  -- the ordinates
  have hord : ∀ p ∈ subR (w ω).wt_coefs j1 j2, ∀ i : ℕ, p.1 = ((i + 1 : ℕ) : ℤ) → i < j2 → ∀ q : ℕ, q = 2 ∨ q = 4 → 0 < momentOf wt lam L m4 q i →
      (∀ weighted, 0 < wtOf weighted p r) ∧ ∃ t, (nanmean (((col p.2 r).map Fl.abs).map (fastPower (.real (q : ℝ))))).log2 = Fl.fin t ∧
        |t - (q * (Real.logb 2 (κ ω) - ((i : ℝ) + 1) / 2) + Real.logb 2 (momentOf wt lam L m4 q i))| ≤ ε' := by
    intro p hp i hi hij q hq hpos
    obtain ⟨xs, hxs, hne, hy⟩ := htyp p (sub_mem hp) i hi hij
    obtain ⟨y, hy1, hy2⟩ := hy q hq
    rw [if_pos hpos] at hy2
    obtain ⟨hy0, hyl⟩ := hlog _ y hpos hy2
    have hq0 : (0:ℝ) < q := by rcases hq with rfl | rfl <;> norm_num
    refine ⟨fun weighted => ?_, ?_⟩
    · unfold wtOf
      split
      · rw [hxs.count]
        exact_mod_cast List.length_pos_iff.2 hne
      · exact one_pos
    · rw [sfMean_col (e := .real (q : ℝ)) hxs (Or.inl hq0) hne]
      change ∃ t, (Fl.fin (powSum xs (q : ℝ) / xs.length)).log2 = Fl.fin t ∧ _
      have hs0 : 0 < (2:ℝ) ^ (((i + 1 : ℕ) : ℝ) * (1 / 2 - 1 / 1 + 0)) := by positivity
      have hpw : 0 < powSum xs q / xs.length := by
        rw [hy1]; have := hκ ω; positivity
      refine ⟨Real.logb 2 (powSum xs q / xs.length), by show Fl.log2 (Fl.fin _) = _; exact Fl.log2_fin hpw, ?_⟩
      rw [hy1, Real.logb_mul (by have := hκ ω; positivity) hy0.ne', Real.logb_pow, Real.logb_mul hs0.ne' (hκ ω).ne',
        Real.logb_rpow (by norm_num) (by norm_num)]
      refine le_trans (le_of_eq ?_) hyl
      congr 1
      push_cast
      ring
  have hpos2 : ∀ i, 0 < momentOf wt lam L m4 2 i := by
    intro i
    rw [momentOf, if_pos rfl]
    exact mul_pos (Real.exp_pos _) (hsc lam L hL i).1
  refine ⟨fun weighted => ?_, fun hlam hWL => ?_⟩
  · rw [zetaF_cols]
    obtain ⟨z, hz, hzb⟩ := slopeL_near (subR (w ω).wt_coefs j1 j2) (fun p => p.1) (fun p => wtOf weighted p r)
      (fun p hp => by
        obtain ⟨i, hi, hi1, hi2⟩ := hkey p hp
        exact (hord p hp i hi hi2 2 (Or.inl rfl) (hpos2 i)).1 weighted)
      (by
        obtain ⟨p, hp, p', hp', hne⟩ := htwo
        exact ⟨p, hp, p', hp', fun h => hne (by rw [h])⟩)
      (fun p => (nanmean (((col p.2 r).map Fl.abs).map (fastPower (.real 2)))).log2)
      (2 * Real.logb 2 (κ ω) + Real.logb 2 (V * Real.exp (2 * mrwLogCovariance lam L 0))) 1
      (fun p => ε' + B * (2:ℝ) ^ (-(2 * (1 / 2 : ℝ) * p.1)))
      (fun p hp => by
        obtain ⟨i, hi, hi1, hi2⟩ := hkey p hp
        obtain ⟨t, ht, htb⟩ := (hord p hp i hi hi2 2 (Or.inl rfl) (hpos2 i)).2
        refine ⟨t, by rw [← ht]; norm_num, ?_⟩
        have h2 := (hsc lam L hL i).2.1
        have e2 : momentOf wt lam L (fun _ => 0) 2 i = momentOf wt lam L m4 2 i := by rw [momentOf, momentOf, if_pos rfl, if_pos rfl]
        rw [e2] at h2
        have e : t - (2 * Real.logb 2 (κ ω) + Real.logb 2 (V * Real.exp (2 * mrwLogCovariance lam L 0)) + 1 * ((p.1 : ℤ) : ℝ)) =
            (t - (((2 : ℕ) : ℝ) * (Real.logb 2 (κ ω) - ((i : ℝ) + 1) / 2) + Real.logb 2 (momentOf wt lam L m4 2 i))) +
            (Real.logb 2 (momentOf wt lam L m4 2 i) - (Real.logb 2 (V * Real.exp (2 * mrwLogCovariance lam L 0)) + ((i : ℝ) + 1) * 2)) := by
          rw [hi]; push_cast; ring
        rw [e]
        refine (abs_add_le _ _).trans (add_le_add htb (h2.trans (le_of_eq ?_)))
        rw [hi]; push_cast; congr 2; ring)
    refine ⟨z, hz, hzb.trans ?_⟩
    have hsum : ((subR (w ω).wt_coefs j1 j2).map fun p => ε' + B * (2:ℝ) ^ (-(2 * (1 / 2 : ℝ) * p.1))) =
        (arange (j1 : ℤ) ((j2 : ℤ) + 1)).map fun j : ℤ => ε' + B * (2:ℝ) ^ (-(2 * (1 / 2 : ℝ) * j)) := by
      rw [← hkeys, List.map_map]; rfl
    rw [hsum]
    refine (arange_sum_le hj12 (by norm_num) hB).trans ?_
    rw [show -(2 * (1 / 2 : ℝ) * (j1 : ℝ)) = -(j1 : ℝ) by ring]
    linarith
  · rw [zetaF_cols]
    have hWi : ∀ i < j2, ((2 * wt.dec_hi.length * 2 ^ i : ℕ) : ℝ) ≤ L := by
      intro i hi
      refine le_trans ?_ hWL
      have : (2:ℝ) ^ (i + 1) ≤ 2 ^ j2 := pow_le_pow_right₀ (by norm_num) (by omega)
      push_cast
      have h3 := mul_le_mul_of_nonneg_left this (Nat.cast_nonneg (α := ℝ) wt.dec_hi.length)
      rw [pow_succ] at h3
      linarith
    have h4 : ∀ i < j2, 0 < m4 i ∧ _ := fun i hi => (hsc lam L hL i).2.2 _ _ _ (hm i) hlam (hWi i hi)
    have hpos4 : ∀ i < j2, 0 < momentOf wt lam L m4 4 i := by
      intro i hi
      rw [momentOf, if_neg (by norm_num)]
      exact (h4 i hi).1
    obtain ⟨z, hz, hzb⟩ := slopeL_wide (subR (w ω).wt_coefs j1 j2) (fun p => p.1) (fun p => wtOf false p r)
      (fun p hp => by simp [wtOf]) hj12 hkeys
      (fun p => (nanmean (((col p.2 r).map Fl.abs).map (fastPower (.real 4)))).log2)
      (4 * Real.logb 2 (κ ω) + Real.logb 2 (3 * L ^ (8 * lam ^ 2) * V ^ 2 * (wt.dec_hi.length : ℝ) ^ (-(4 * lam ^ 2)))) (2 - 4 * lam ^ 2)
      (ε' + C lam)
      (fun p hp => by
        obtain ⟨i, hi, hi1, hi2⟩ := hkey p hp
        obtain ⟨t, ht, htb⟩ := (hord p hp i hi hi2 4 (Or.inr rfl) (hpos4 i hi2)).2
        refine ⟨t, by rw [← ht]; norm_num, ?_⟩
        have h2 := (h4 i hi2).2
        have e2 : momentOf wt lam L m4 4 i = m4 i := by rw [momentOf, if_neg (by norm_num)]
        rw [e2] at htb
        have e : t - (4 * Real.logb 2 (κ ω) + Real.logb 2 (3 * L ^ (8 * lam ^ 2) * V ^ 2 * (wt.dec_hi.length : ℝ) ^ (-(4 * lam ^ 2))) +
              (2 - 4 * lam ^ 2) * ((p.1 : ℤ) : ℝ)) =
            (t - (((4 : ℕ) : ℝ) * (Real.logb 2 (κ ω) - ((i : ℝ) + 1) / 2) + Real.logb 2 (m4 i))) +
            (Real.logb 2 (m4 i) - (Real.logb 2 (3 * L ^ (8 * lam ^ 2) * V ^ 2 * (wt.dec_hi.length : ℝ) ^ (-(4 * lam ^ 2))) + ((i : ℝ) + 1) * (4 - 4 * lam ^ 2))) := by
          rw [hi]; push_cast; ring
        rw [e]
        exact (abs_add_le _ _).trans (add_le_add htb h2))
    refine ⟨z, hz, hzb.trans ?_⟩
    rw [mul_add, add_div, add_comm (6 * C lam / _)]
    refine add_le_add ?_ le_rfl
    rw [div_le_iff₀ hnum]
    nlinarith

/-- **C129, end to end**: simulate a multifractal random walk with `H = 1/2`, intermittency `lam` and integral scale `L` with `mrw`
(default method), analyse it with `mf_analysis_full`.  For constants `B` (depending on the wavelet only) and `C` (depending on the wavelet
and `lam`), every range of scales `j1 < j2`, and every long enough signal: with probability at least `1 - δ` the call returns, the
estimated `H` and `zeta(2)` are within `B 2^(-j1) + ε` of 1/2 and 1 whatever `lam`, `L` and the weighting; and if `4 lam^2 < 1`, the
regression is unweighted and the wavelets of the largest scale fit in the integral scale, the estimated `zeta(4)` is within
`C / (j2 - j1) + ε` of `2 - 4 lam^2`. -/
theorem C129_mrw (hwt : wt.Valid) (ho : OrthonormalBank wt) {M : ℕ} (hM : VanishingMoments wt.dec_hi M) (hM1 : 1 ≤ M) :
    ∃ (B : ℝ) (C : ℝ → ℝ), 0 ≤ B ∧ (∀ lam, 0 ≤ C lam) ∧ ∀ lam L : ℝ, 0 < L → ∀ j1 j2 : ℕ, 1 ≤ j1 → j1 < j2 → ∀ ε δ : ℝ, 0 < ε → 0 < δ → ∃ N₀ : ℕ,
    ∀ {Ω : Type u} [MeasurableSpace Ω] {μ : Measure Ω} {gen : Ω → ℕ → ℝ}, StdNormal μ gen →
    ∀ {N R : ℕ} {sigma : ℝ}, N₀ ≤ N → sigma ≠ 0 → R ≠ 0 →
      ∃ x : Ω → RArr R, Returns (mrw R N (1 / 2) lam L sigma "cme" (none, none)) gen x ∧
      ∀ (q : List ℝ) (n : ℕ) (p : PExp) (weighted : Bool) (r : Fin R), (2:ℝ) ∈ q → p = .none ∨ (p = .inf ∧ 4 ≤ wt.dec_hi.length) →
      μ {ω | ¬ ∃ d, mfAnalysisFull (asFloats (x ω)) j1 (some j2) 1 0 weighted wt p (some (.ndarray q)) n = .ok d ∧
        Near (d.dwt.structure_.H r) (1 / 2) (B * (2:ℝ) ^ (-(j1 : ℝ)) + ε) ∧
        (∀ i : ℕ, q[i]? = some 2 → ∃ z, d.dwt.structure_.zeta[i]? = some z ∧ Near (z r) 1 (B * (2:ℝ) ^ (-(j1 : ℝ)) + ε)) ∧
        (weighted = false → 4 * lam ^ 2 < 1 → (wt.dec_hi.length : ℝ) * 2 ^ j2 ≤ L → ∀ i : ℕ, q[i]? = some 4 →
          ∃ z, d.dwt.structure_.zeta[i]? = some z ∧ Near (z r) (2 - 4 * lam ^ 2) (C lam / (j2 - j1) + ε))} ≤ ENNReal.ofReal δ := by
  obtain ⟨B, C, hB, hC, h⟩ := mrw_estimates.{u} hwt ho hM hM1
  refine ⟨B, C, hB, hC, ?_⟩
  intro lam L hL j1 j2 hj1 hj12 ε δ hε hδ
  obtain ⟨N₀, hN₀⟩ := h lam L hL j1 j2 hj1 hj12 ε δ hε hδ
  refine ⟨max (max N₀ (2 ^ (j2 + 1) * (wt.dec_hi.length + 1))) (max 2 ⌈L⌉₊), ?_⟩
  intro Ω _ μ gen hg N R sigma hN hs hR
  have hNa := ((le_max_left _ _).trans (le_max_left _ _)).trans hN
  have hNb := ((le_max_right _ _).trans (le_max_left _ _)).trans hN
  have hN2 := ((le_max_left _ _).trans (le_max_right _ _)).trans hN
  have hLN : L ≤ N := (Nat.le_ceil L).trans (by exact_mod_cast ((le_max_right _ _).trans (le_max_right _ _)).trans hN)
  obtain ⟨-, x, e, v, hx, hlaw⟩ := C86_law (R := R) (lam := lam) (sigma := sigma) (H := 1 / 2) (by norm_num) (by norm_num) hL hLN hN2 hR hg
  have hl : ∀ ω, (x ω).length = N := by
    intro ω
    obtain ⟨s, hs, hsx⟩ := hx ω
    obtain ⟨s', _, _, _, hs', -, hlen, -⟩ := C75_mrw (R := R) (lam := lam) (sigma := sigma) (H := 1 / 2) (by norm_num) (by norm_num) hL hLN hN2 (gen ω)
    rw [hs] at hs'
    cases hs'
    rw [← hsx]; exact hlen
  refine ⟨x, hx, fun q n p weighted r h2 hp => ?_⟩
  have hne : ∀ ω, asFloats (x ω) ≠ [] := by
    intro ω h0; have := congrArg List.length h0; simp [asFloats, hl ω] at this; omega
  choose w hw hfull using fun ω => C48_total (asFloats (x ω)) p (hp.imp id (·.1)) wt j1 (some (j2 : ℝ)) 0 1 weighted (some (.ndarray q)) n hR
    (hne ω) one_ne_zero
  have h0 : ∀ ω, waveletAnalysis (sampled N fun r t => ((x ω).getD t.toNat fun _ => 0) r) p wt j1 (some (j2 : ℝ)) 0 1 weighted = .ok (w ω) :=
    fun ω => by rw [← asFloats_sampled (hl ω)]; exact hw ω
  have hlong : ∀ ω, (w ω).j2_eff = j2 ∧ j2 ≤ (w ω).wt_coefs.values.length := fun ω =>
    long_enough hR hwt (hp.imp id (·.2)) (by omega) hNb (h0 ω)
  refine (measure_mono ?_).trans (hN₀ hlaw hs hl hw hNa (fun ω => (hlong ω).2) r)
  intro ω hω
  simp only [Set.mem_ofPred_eq] at hω ⊢
  rintro ⟨hz2, hz4⟩
  apply hω
  obtain ⟨hj2, hlen⟩ := hlong ω
  obtain ⟨d, hd, -⟩ := hfull ω (by exact_mod_cast hj1) (by rw [hj2]; exact_mod_cast hj12.le) h2
  refine ⟨d, hd, ?_⟩
  unfold mfAnalysisFull at hd
  rw [hw ω] at hd
  simp only at hd
  rw [C47_bundle, hj2] at hd
  obtain ⟨⟨b1, -⟩, -⟩ := hd
  change StructFn.make _ (.ndarray q) _ _ _ = _ at b1
  obtain ⟨hreg, hgi, -⟩ := analysis_entries hwt (h0 ω)
  have a1 : (1:ℤ) ≤ (j1 : ℤ) := by exact_mod_cast hj1
  have a2 : (j1 : ℤ) ≤ (j2 : ℤ) := by exact_mod_cast hj12.le
  have a3 : (j2 : ℤ) ≤ ((w ω).wt_coefs.values.length : ℤ) := by exact_mod_cast hlen
  rw [hreg.structFn a1 a2 a3 weighted q h2] at b1
  rw [← Except.ok.inj b1]
  refine ⟨?_, ?_, ?_⟩
  · obtain ⟨t, ht, htb⟩ := hz2 weighted
    refine ⟨t / 2 - 0, ?_, ?_⟩
    · show zetaF _ _ _ _ _ _ / Fl.fin 2 - Fl.fin (w ω).wt_coefs.gamint = _
      rw [ht, hgi, Fl.fin_div two_ne_zero, Fl.fin_sub]
    · rw [show t / 2 - 0 - 1 / 2 = (t - 1) / 2 by ring, abs_div, abs_two, div_le_iff₀ (by norm_num)]
      have : 0 ≤ B * (2:ℝ) ^ (-(j1 : ℝ)) := by positivity
      linarith
  · intro i hi
    exact ⟨zetaF (w ω).wt_coefs j1 j2 weighted (.real 2), by simp only [List.getElem?_map, hi, Option.map_some], hz2 weighted⟩
  · rintro rfl hlam hWL i hi
    exact ⟨zetaF (w ω).wt_coefs j1 j2 false (.real 4), by simp only [List.getElem?_map, hi, Option.map_some], hz4 hlam hWL⟩

/-- **C129, the parameters are recovered**: multifractal random walks simulated by `mrw_cumul` from the log-cumulants `c1`, `c2`, with
`c1 + c2 = 1/2` (uncorrelated increments) and `-1/4 < c2 ≤ 0`, and analysed without weights over a wide enough range of scales, starting
at a large enough scale and ending within the integral scale: `zeta(q)` for `q = 2` and `q = 4` are within `ε` of `c1 q + c2 q^2 / 2`, and
`H` of 1/2, with probability as close to one as desired when the signal is long enough. -/
theorem C129_cumulants (hwt : wt.Valid) (ho : OrthonormalBank wt) {M : ℕ} (hM : VanishingMoments wt.dec_hi M) (hM1 : 1 ≤ M) {c1 c2 : ℝ}
    (h12 : c1 + c2 = 1 / 2) (hc2 : c2 ≤ 0) (hc2' : -(1 / 4) < c2) (ε : ℝ) (hε : 0 < ε) :
    ∃ j₀ W : ℕ, ∀ j1 j2 : ℕ, j₀ ≤ j1 → j1 + W ≤ j2 → ∀ L : ℝ, (wt.dec_hi.length : ℝ) * 2 ^ j2 ≤ L → ∀ δ : ℝ, 0 < δ → ∃ N₀ : ℕ,
    ∀ {Ω : Type u} [MeasurableSpace Ω] {μ : Measure Ω} {gen : Ω → ℕ → ℝ}, StdNormal μ gen →
    ∀ {N R : ℕ} {sigma : ℝ}, N₀ ≤ N → sigma ≠ 0 → R ≠ 0 →
      ∃ x : Ω → RArr R, Returns (mrwCumul R N c1 c2 L sigma "cme" (none, none)) gen x ∧
      ∀ (q : List ℝ) (n : ℕ) (p : PExp) (r : Fin R), (2:ℝ) ∈ q → p = .none ∨ (p = .inf ∧ 4 ≤ wt.dec_hi.length) →
      μ {ω | ¬ ∃ d, mfAnalysisFull (asFloats (x ω)) j1 (some j2) 1 0 false wt p (some (.ndarray q)) n = .ok d ∧
        Near (d.dwt.structure_.H r) (1 / 2) ε ∧
        ∀ (i : ℕ) (e : ℝ), q[i]? = some e → e = 2 ∨ e = 4 →
          ∃ z, d.dwt.structure_.zeta[i]? = some z ∧ Near (z r) (c1 * e + c2 * e ^ 2 / 2) ε} ≤ ENNReal.ofReal δ := by
  obtain ⟨B, C, hB, hC, h⟩ := C129_mrw.{u} hwt ho hM hM1
  obtain ⟨lam, hlam⟩ : ∃ lam, lam = √(-c2) := ⟨_, rfl⟩
  have hl2 : lam ^ 2 = -c2 := by rw [hlam, Real.sq_sqrt (by linarith)]
  obtain ⟨j₀, hj₀⟩ : ∃ j₀ : ℕ, ∀ j1 : ℕ, j₀ ≤ j1 → B * (2:ℝ) ^ (-(j1 : ℝ)) ≤ ε / 2 := by
    have ht : Filter.Tendsto (fun j : ℕ => B * ((2:ℝ) ^ (-(1:ℝ))) ^ j) Filter.atTop (nhds (B * 0)) :=
      (tendsto_pow_atTop_nhds_zero_of_lt_one (by positivity) (Real.rpow_lt_one_of_one_lt_of_neg (by norm_num) (by norm_num))).const_mul _
    rw [mul_zero] at ht
    obtain ⟨j₀, hj₀⟩ := Filter.eventually_atTop.1 (ht.eventually_le_const (by positivity : (0:ℝ) < ε / 2))
    refine ⟨j₀, fun j1 hj1 => ?_⟩
    have := hj₀ j1 hj1
    rwa [← Real.rpow_natCast, ← Real.rpow_mul (by norm_num), show -(1:ℝ) * (j1 : ℝ) = -(j1 : ℝ) by ring] at this
  obtain ⟨W, hW⟩ := exists_nat_ge (C lam / (ε / 2))
  refine ⟨j₀ + 1, W + 1, ?_⟩
  intro j1 j2 hj1 hj12 L hL δ hδ
  have hL0 : 0 < L := by
    refine lt_of_lt_of_le ?_ hL
    have : (0:ℝ) < wt.dec_hi.length := by exact_mod_cast hwt.pos
    positivity
  obtain ⟨N₀, hN₀⟩ := h lam L hL0 j1 j2 (by omega) (by omega) (ε / 2) δ (by positivity) hδ
  refine ⟨N₀, ?_⟩
  intro Ω _ μ gen hg N R sigma hN hs hR
  obtain ⟨x, hx, hb⟩ := hN₀ hg hN hs hR
  refine ⟨x, ?_, fun q n p r h2 hp => ?_⟩
  · intro ω
    have e1 : mrwCumul R N c1 c2 L sigma "cme" (none, none) (gen ω) = mrw R N (1 / 2) lam L sigma "cme" (none, none) (gen ω) := by
      unfold mrwCumul
      rw [if_neg (not_lt.mpr hc2), h12, hlam]
    obtain ⟨s, hs, hsx⟩ := hx ω
    exact ⟨s, by rw [e1]; exact hs, hsx⟩
  refine (measure_mono ?_).trans (hb q n p false r h2 hp)
  intro ω hω
  simp only [Set.mem_ofPred_eq] at hω ⊢
  rintro ⟨d, hd, hH, hz2, hz4⟩
  apply hω
  have hs1 : B * (2:ℝ) ^ (-(j1 : ℝ)) + ε / 2 ≤ ε := by
    have := hj₀ j1 (by omega)
    linarith
  have hs2 : C lam / ((j2 : ℝ) - j1) + ε / 2 ≤ ε := by
    have hj : (W:ℝ) + 1 ≤ (j2:ℝ) - j1 := by
      have : ((j1 + (W + 1) : ℕ) : ℝ) ≤ j2 := by exact_mod_cast hj12
      push_cast at this; linarith
    have hW0 : (0:ℝ) ≤ W := by positivity
    rw [div_le_iff₀ (by positivity : (0:ℝ) < ε / 2)] at hW
    have : C lam / ((j2 : ℝ) - j1) ≤ ε / 2 := by
      rw [div_le_iff₀ (by linarith)]
      nlinarith
    linarith
  refine ⟨d, hd, hH.mono hs1, ?_⟩
  rintro i e hi (rfl | rfl)
  · obtain ⟨z, hz, hzn⟩ := hz2 i hi
    refine ⟨z, hz, ?_⟩
    rw [show c1 * 2 + c2 * 2 ^ 2 / 2 = 1 by linarith]
    exact hzn.mono hs1
  · obtain ⟨z, hz, hzn⟩ := hz4 trivial (by rw [hl2]; linarith) hL i hi
    refine ⟨z, hz, ?_⟩
    rw [show c1 * 4 + c2 * 4 ^ 2 / 2 = 2 - 4 * lam ^ 2 by rw [hl2]; linarith]
    exact hzn.mono hs2

/-- **C129, multifractality is detected**: the estimates of a multifractal random walk (`c2 < 0`) satisfy `zeta(4) < 2 zeta(2)`, and
`(2 zeta(2) - zeta(4)) / 4` is within `ε` of `-c2`, with probability as close to one as desired. -/
theorem C129_detected (hwt : wt.Valid) (ho : OrthonormalBank wt) {M : ℕ} (hM : VanishingMoments wt.dec_hi M) (hM1 : 1 ≤ M) {c1 c2 : ℝ}
    (h12 : c1 + c2 = 1 / 2) (hc2 : c2 < 0) (hc2' : -(1 / 4) < c2) (ε : ℝ) (hε : 0 < ε) :
    ∃ j₀ W : ℕ, ∀ j1 j2 : ℕ, j₀ ≤ j1 → j1 + W ≤ j2 → ∀ L : ℝ, (wt.dec_hi.length : ℝ) * 2 ^ j2 ≤ L → ∀ δ : ℝ, 0 < δ → ∃ N₀ : ℕ,
    ∀ {Ω : Type u} [MeasurableSpace Ω] {μ : Measure Ω} {gen : Ω → ℕ → ℝ}, StdNormal μ gen →
    ∀ {N R : ℕ} {sigma : ℝ}, N₀ ≤ N → sigma ≠ 0 → R ≠ 0 →
      ∃ x : Ω → RArr R, Returns (mrwCumul R N c1 c2 L sigma "cme" (none, none)) gen x ∧
      ∀ (n : ℕ) (p : PExp) (r : Fin R), p = .none ∨ (p = .inf ∧ 4 ≤ wt.dec_hi.length) →
      μ {ω | ¬ ∃ d z2 z4, ∃ t2 t4 : ℝ, mfAnalysisFull (asFloats (x ω)) j1 (some j2) 1 0 false wt p (some (.ndarray [2, 4])) n = .ok d ∧
        d.dwt.structure_.zeta[0]? = some z2 ∧ d.dwt.structure_.zeta[1]? = some z4 ∧ z2 r = Fl.fin t2 ∧ z4 r = Fl.fin t4 ∧ t4 < 2 * t2 ∧ |(2 * t2 - t4) / 4 - (-c2)| ≤ ε} ≤ ENNReal.ofReal δ := by
  obtain ⟨j₀, W, h⟩ := C129_cumulants.{u} hwt ho hM hM1 h12 hc2.le hc2' (min ε (-c2)) (lt_min hε (by linarith))
  refine ⟨j₀, W, ?_⟩
  intro j1 j2 hj1 hj12 L hL δ hδ
  obtain ⟨N₀, hN₀⟩ := h j1 j2 hj1 hj12 L hL δ hδ
  refine ⟨N₀, ?_⟩
  intro Ω _ μ gen hg N R sigma hN hs hR
  obtain ⟨x, hx, hb⟩ := hN₀ hg hN hs hR
  refine ⟨x, hx, fun n p r hp => ?_⟩
  refine (measure_mono ?_).trans (hb [2, 4] n p r (by simp) hp)
  intro ω hω
  simp only [Set.mem_ofPred_eq] at hω ⊢
  rintro ⟨d, hd, -, hz⟩
  apply hω
  obtain ⟨z2, e2, t2, a2, b2⟩ := hz 0 2 rfl (Or.inl rfl)
  obtain ⟨z4, e4, t4, a4, b4⟩ := hz 1 4 rfl (Or.inr rfl)
  refine ⟨d, z2, z4, t2, t4, hd, e2, e4, a2, a4, ?_, ?_⟩
  · have h1 := abs_le.1 (b2.trans (min_le_right _ _))
    have h2 := abs_le.1 (b4.trans (min_le_right _ _))
    linarith [h1.1, h1.2, h2.1, h2.2]
  · have h1 := abs_le.1 (b2.trans (min_le_left _ _))
    have h2 := abs_le.1 (b4.trans (min_le_left _ _))
    rw [abs_le]
    constructor <;> linarith [h1.1, h1.2, h2.1, h2.2]

/-! The hypotheses are met: two walks with `c1 = 0.6`, `c2 = -0.1` simulated by `mrw_cumul` from standard normal numbers (which exist) and
analysed with the Daubechies wavelet `db2`: `0.09 ≤ (2 zeta(2) - zeta(4)) / 4 ≤ 0.11` with probability at least 0.99, from a certain length. -/
example : ∃ j1 j2 N : ℕ, ∃ L : ℝ, 1 ≤ j1 ∧ j1 < j2 ∧ 0 < L ∧
    ∃ (Ω : Type) (_ : MeasurableSpace Ω) (μ : Measure Ω) (gen : Ω → ℕ → ℝ) (x : Ω → RArr 2), StdNormal μ gen ∧
    Returns (mrwCumul 2 N 0.6 (-0.1) L 1 "cme" (none, none)) gen x ∧
    μ {ω | ¬ ∃ d z2 z4, ∃ t2 t4 : ℝ, mfAnalysisFull (asFloats (x ω)) j1 (some j2) 1 0 false db2 .inf (some (.ndarray [2, 4])) 2 = .ok d ∧
      d.dwt.structure_.zeta[0]? = some z2 ∧ d.dwt.structure_.zeta[1]? = some z4 ∧ z2 1 = Fl.fin t2 ∧ z4 1 = Fl.fin t4 ∧ t4 < 2 * t2 ∧
      |(2 * t2 - t4) / 4 - (-(-0.1))| ≤ 0.01} ≤ ENNReal.ofReal 0.01 := by
  obtain ⟨hv, ho, hm⟩ := db2_orthonormal
  obtain ⟨j₀, W, h⟩ := C129_detected hv ho hm (by norm_num) (c1 := 0.6) (c2 := -0.1) (by norm_num) (by norm_num) (by norm_num) 0.01 (by norm_num)
  obtain ⟨N₀, hN₀⟩ := h (j₀ + 1) (j₀ + 1 + W + 1) (by omega) (by omega) _ le_rfl 0.01 (by norm_num)
  obtain ⟨Ω, m, μ, gen, hg⟩ := exists_stdNormal
  obtain ⟨x, hx, hb⟩ := hN₀ hg (R := 2) (sigma := 1) le_rfl one_ne_zero (by norm_num)
  refine ⟨j₀ + 1, j₀ + 1 + W + 1, N₀, _, by omega, by omega, ?_, Ω, m, μ, gen, x, hg, hx, hb 2 .inf 1 (Or.inr ⟨rfl, by simp [db2]⟩)⟩
  have : (0:ℝ) < db2.dec_hi.length := by exact_mod_cast hv.pos
  positivity

end

end MFA
