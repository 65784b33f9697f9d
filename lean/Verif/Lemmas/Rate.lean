import Verif.Lemmas.FromTypical

/-! From typical scales to `mf_analysis_full`, and the rate in the law of large numbers. -/

namespace MFA

universe u

open Classical Finset MeasureTheory ProbabilityTheory

noncomputable section

variable {wt : Wavelet}

/-- When all the scales up to `j2` are typical, `mf_analysis_full` recovers the exponent. -/
theorem recovered_of_typical {h' β B0 : ℝ} (h0 : 0 < β) (hB0 : 0 ≤ B0) (q : List ℝ) (n : ℕ) (h2 : (2:ℝ) ∈ q) (hq : ∀ e ∈ q, -(1 / 2) < e)
    (ε : ℝ) (hε : 0 < ε) : ∃ j₀ : ℕ, 1 ≤ j₀ ∧ ∀ j1 j2 : ℕ, j₀ ≤ j1 → j1 < j2 → ∃ η : ℝ, 0 < η ∧
    ∀ {wt : Wavelet}, wt.Valid → ∀ {R : ℕ} {x : List (Fin R → ℝ)} {p : PExp} {weighted : Bool} {w : WT R} {c V : ℝ} {τ : ℕ → ℝ} (r : Fin R), 0 < c → x ≠ [] →
      p = .none ∨ p = .inf → waveletAnalysis (asFloats x) p wt j1 (some (j2 : ℝ)) 0 1 weighted = .ok w → w.j2_eff = j2 → j2 ≤ w.wt_coefs.values.length →
      (∀ j, 1 ≤ j → j ≤ j2 → 0 < τ j ∧ |Real.logb 2 (τ j) - (Real.logb 2 V + j * coefExponent h' 0 1)| ≤ B0 * (2:ℝ) ^ (-(2 * β * j))) →
      (∀ p ∈ w.wt_coefs.values, p.1 ≤ j2 → ∃ xs, Entries (col p.2 r) xs ∧ TypicalScale (testList q n) η √(c * τ p.1.toNat) xs) →
      ∃ d, mfAnalysisFull (asFloats x) j1 (some j2) 1 0 weighted wt p (some (.ndarray q)) n = .ok d ∧ MonofractalNear d.dwt q n h' ε r := by
  have hρ1 : (2:ℝ) ^ (-(2 * β)) < 1 := Real.rpow_lt_one_of_one_lt_of_neg (by norm_num) (by linarith)
  obtain ⟨B, hBd⟩ : ∃ B, B = B0 / 2 / (1 - (2:ℝ) ^ (-(2 * β))) := ⟨_, rfl⟩
  have hB : 0 ≤ B := by
    rw [hBd]
    have : 0 < 1 - (2:ℝ) ^ (-(2 * β)) := by linarith
    positivity
  have hb : coefExponent h' 0 1 / 2 = h' := by rw [coefExponent_default]; ring
  -- the exponents are bounded
  obtain ⟨Q, hQ1, hQ⟩ : ∃ Q : ℝ, 1 ≤ Q ∧ ∀ e ∈ q, |e| ≤ Q := by
    clear h2 hq
    induction q with
    | nil => exact ⟨1, le_rfl, by simp⟩
    | cons a q ih =>
      obtain ⟨Q, h1, h2⟩ := ih
      refine ⟨max Q |a|, le_max_of_le_left h1, ?_⟩
      intro e he
      rcases List.mem_cons.1 he with rfl | he
      · exact le_max_right _ _
      · exact (h2 e he).trans (le_max_left _ _)
  obtain ⟨j₀, hj₀1, hj₀⟩ : ∃ j₀ : ℕ, 1 ≤ j₀ ∧ ∀ j1 : ℕ, j₀ ≤ j1 → Q * B * (2:ℝ) ^ (-(2 * β * j1)) ≤ ε / 2 := by
    have hρ0 : (0:ℝ) ≤ (2:ℝ) ^ (-(2 * β)) := by positivity
    have ht : Filter.Tendsto (fun j : ℕ => Q * B * ((2:ℝ) ^ (-(2 * β))) ^ j) Filter.atTop (nhds (Q * B * 0)) :=
      (tendsto_pow_atTop_nhds_zero_of_lt_one hρ0 hρ1).const_mul _
    rw [mul_zero] at ht
    obtain ⟨j₀, hj₀⟩ := Filter.eventually_atTop.1 (ht.eventually_le_const (by positivity : (0:ℝ) < ε / 2))
    refine ⟨j₀ + 1, by omega, fun j1 hj1 => ?_⟩
    have := hj₀ j1 (by omega)
    rwa [← Real.rpow_natCast, ← Real.rpow_mul (by norm_num), show -(2 * β) * (j1 : ℝ) = -(2 * β * j1) by ring] at this
  refine ⟨j₀, hj₀1, ?_⟩
  intro j1 j2 hj01 hj12
  have hj1 : 1 ≤ j1 := hj₀1.trans hj01
  have hlog : 0 < Real.log 2 := Real.log_pos (by norm_num)
  have hj12r : (j1 : ℝ) < j2 := by exact_mod_cast hj12
  obtain ⟨ε', hε'd⟩ : ∃ ε', ε' = ε / 2 * Real.log 2 / (j2 - j1 + 1) := ⟨_, rfl⟩
  have hden : (0:ℝ) < j2 - j1 + 1 := by linarith
  have hε' : 0 < ε' := by rw [hε'd]; positivity
  obtain ⟨η, hη, hYη⟩ := common_precision (statList q n) (statList_asymptotic hq) hε'
  refine ⟨η, hη, ?_⟩
  intro wt hwt R x p weighted w c V τ r hc hx hp hw hj2 hlen hτ htyp
  have hR : R ≠ 0 := fun h0 => by subst h0; exact r.elim0
  have hne : asFloats x ≠ [] := by
    intro h0; apply hx; simpa [asFloats] using h0
  obtain ⟨w', hw', hfull⟩ := C48_total (asFloats x) p hp wt j1 (some (j2 : ℝ)) 0 1 weighted (some (.ndarray q)) n hR hne one_ne_zero
  have hww : w' = w := by rw [hw] at hw'; exact (Except.ok.inj hw').symm
  subst hww
  obtain ⟨d, hd, -⟩ := hfull (by exact_mod_cast hj1) (by rw [hj2]; exact_mod_cast hj12.le) h2
  refine ⟨d, hd, ?_⟩
  have hws := hw
  rw [asFloats_sampled rfl] at hws
  obtain ⟨hreg, hg, -⟩ := analysis_entries hwt hws
  have hest := estimates_of_slopes (m := w'.wt_coefs) (q := q) (n := n) (j1 := j1) (j2 := j2) (weighted := weighted) (r := r)
    (a := coefExponent h' 0 1 / 2) (B := B) (β := β) (ε := ε / 2) (by positivity) (fun Y hY => by
      obtain ⟨z, hz, hzb⟩ := slopes_typical hreg hB0 h0 hc hj1 hj12 hlen hτ (hYη Y hY) htyp weighted
      refine ⟨z, hz, hzb.trans (le_of_eq ?_)⟩
      rw [← hBd, hε'd]
      field_simp)
  rw [hb] at hest
  have hbias := hj₀ j1 hj01
  have hp2 : (0:ℝ) ≤ B * (2:ℝ) ^ (-(2 * β * j1)) := by positivity
  refine monofractal_of_estimates h2 hd hw hj2 hreg hg hj1 hj12 hlen (Bb := B * (2:ℝ) ^ (-(2 * β * j1))) ?_ ?_ hε ?_
  · intro e he
    have := mul_le_mul_of_nonneg_right (hQ e he) hp2
    linarith
  · have : B * (2:ℝ) ^ (-(2 * β * j1)) ≤ Q * (B * (2:ℝ) ^ (-(2 * β * j1))) := le_mul_of_one_le_left hp2 hQ1
    linarith
  · simp only [← mul_assoc]
    exact hest

/-- Half of the positions are interior. -/
theorem interior_card_half {N F j J : ℕ} (hj : 1 ≤ j) (hjJ : j ≤ J) (hN : 2 ^ J * (4 * F + 2) ≤ N) :
    (N : ℝ) / 2 ^ (J + 1) ≤ (interior N F j).card ∧ 1 ≤ (interior N F j).card := by
  have h2 := interior_card_ge N F j hj
  have hN' : 2 ^ j * (4 * F + 2) ≤ N := (Nat.mul_le_mul_right _ (Nat.pow_le_pow_right (by norm_num) hjJ)).trans hN
  have h3 : 4 * F + 2 ≤ N / 2 ^ j := by rw [Nat.le_div_iff_mul_le (by positivity), mul_comm]; exact hN'
  obtain ⟨K, hK⟩ : ∃ K, K = N / 2 ^ j := ⟨_, rfl⟩
  rw [← hK] at h2 h3
  have h4 : N < 2 ^ j * (K + 1) := by
    rw [hK]; exact Nat.lt_mul_div_succ N (by positivity)
  refine ⟨?_, by omega⟩
  have h5 : (N : ℝ) < 2 ^ j * ((K : ℝ) + 1) := by exact_mod_cast h4
  have h6 : (K : ℝ) + 1 ≤ 2 * (interior N F j).card := by exact_mod_cast (by omega : K + 1 ≤ 2 * (interior N F j).card)
  have h7 : (2:ℝ) ^ j ≤ 2 ^ J := pow_le_pow_right₀ (by norm_num) hjJ
  rw [div_le_iff₀ (by positivity)]
  have h8 : (2:ℝ) ^ j * ((K : ℝ) + 1) ≤ 2 ^ J * (2 * (interior N F j).card) :=
    mul_le_mul h7 h6 (by positivity) (by positivity)
  rw [pow_succ]
  linarith

/-- **Joint law of large numbers, with a rate**: the probability that one of the scales up to `J` is not typical is at most `C / N`. -/
theorem joint_rateG {M : ℕ} (hM : VanishingMoments wt.dec_hi M) (hM1 : 1 ≤ M) (hwt : wt.Valid) {G : ℤ → ℝ}
    {h β : ℝ} (hK : ScalingKernel wt G h β) (g nm : ℝ) : ∃ (τ : ℕ → ℝ) (V B : ℝ), 0 < V ∧ 0 ≤ B ∧
    ∀ (F : List (ℝ × ℕ)), (∀ p ∈ F, -(1 / 2) < p.1) → ∀ (J : ℕ) (η : ℝ), 0 < η → ∃ C : ℝ, 0 ≤ C ∧
    ∀ {Ω : Type u} [MeasurableSpace Ω] {μ : Measure Ω} {c : ℝ} {R N : ℕ} {x : Ω → List (Fin R → ℝ)} {w : Ω → WT R}, 0 < c →
      IncrementAnalysis μ wt G c g nm N x w → 2 ^ J * (4 * wt.dec_hi.length + 2) ≤ N → (∀ ω, J ≤ (w ω).wt_coefs.values.length) → ∀ r,
      (∀ j, 1 ≤ j → j ≤ J → 0 < τ j ∧ |Real.logb 2 (τ j) - (Real.logb 2 V + j * coefExponent h g nm)| ≤ B * (2:ℝ) ^ (-(2 * β * j))) ∧
      μ {ω | ¬ ∀ p ∈ (w ω).wt_coefs.values, p.1 ≤ J → ∃ xs, Entries (col p.2 r) xs ∧ TypicalScale F η √(c * τ p.1.toNat) xs} ≤
        ENNReal.ofReal (C / N) := by
  obtain ⟨τ, V, B, hV, hB, hvar, hlln⟩ := coefs_llnG.{u} hM hM1 hwt hK g nm
  refine ⟨τ, V, B, hV, hB, ?_⟩
  intro F hF J η hη
  have hex : ∀ (j : ℕ) (p : ℝ × ℕ), ∃ D, 0 ≤ D ∧ (1 ≤ j → p ∈ F → ∀ {Ω : Type u} [MeasurableSpace Ω] {μ : Measure Ω} {c : ℝ} {R N : ℕ}
      {x : Ω → List (Fin R → ℝ)} {w : Ω → WT R}, 0 < c → IncrementAnalysis μ wt G c g nm N x w → ∀ {ω₀ : Ω},
      j ≤ (w ω₀).wt_coefs.values.length → ∀ r, μ {ω | η ≤ |(∑ k ∈ interior N wt.dec_hi.length j,
        testF p.1 p.2 ((w ω).wt_coefs.number j k r / √(c * τ j))) / (interior N wt.dec_hi.length j).card - normalMoment p.1 p.2|} ≤
        ENNReal.ofReal (D / (interior N wt.dec_hi.length j).card / η ^ 2)) := by
    intro j p
    by_cases hjp : 1 ≤ j ∧ p ∈ F
    · obtain ⟨D, hD, h⟩ := hlln j (measurable_testF p.1 p.2) (testF_even _ _) (testF_sq (hF p hjp.2) _) hjp.1
      refine ⟨D, hD, fun _ _ => ?_⟩
      intro Ω _ μ c R N x w hc hw ω₀ hl r
      have hp := hw.prob
      obtain ⟨-, -, a3, a4⟩ := h hc hw hl r
      exact chebyshev a3 a4 hη
    · exact ⟨0, le_rfl, fun a b => absurd ⟨a, b⟩ hjp⟩
  choose D hD0 hD using hex
  have hS : 0 ≤ ∑ j ∈ Icc 1 J, ∑ p ∈ F.toFinset, D j p := sum_nonneg fun j _ => sum_nonneg fun p _ => hD0 j p
  refine ⟨(∑ j ∈ Icc 1 J, ∑ p ∈ F.toFinset, D j p) * 2 ^ (J + 1) / η ^ 2, by positivity, ?_⟩
  intro Ω _ μ c R N x w hc hw hN hJ r
  have hR : R ≠ 0 := fun h0 => by subst h0; exact r.elim0
  have hp := hw.prob
  obtain ⟨ω₀⟩ : Nonempty Ω := nonempty_of_isProbabilityMeasure μ
  refine ⟨fun j hj1 hj2 => ?_, ?_⟩
  · obtain ⟨a1, a2, -⟩ := hvar hc hw hR hj1 (hj2.trans (hJ ω₀))
    exact ⟨a1, a2⟩
  -- the bad set
  let bad0 : ℕ → Set Ω := fun j => ⋃ k ∈ interior N wt.dec_hi.length j, {ω | (w ω).wt_coefs.number j k r = 0}
  let bad1 : ℕ → ℝ × ℕ → Set Ω := fun j p => {ω | η ≤ |(∑ k ∈ interior N wt.dec_hi.length j,
    testF p.1 p.2 ((w ω).wt_coefs.number j k r / √(c * τ j))) / (interior N wt.dec_hi.length j).card - normalMoment p.1 p.2|}
  have hsub : {ω | ¬ ∀ p ∈ (w ω).wt_coefs.values, p.1 ≤ J → ∃ xs, Entries (col p.2 r) xs ∧ TypicalScale F η √(c * τ p.1.toNat) xs} ⊆
      (⋃ j ∈ Icc 1 J, bad0 j) ∪ ⋃ j ∈ Icc 1 J, ⋃ p ∈ F.toFinset, bad1 j p := by
    intro ω hω
    by_contra hn
    apply hω
    intro p hp' hpJ
    obtain ⟨-, -, he⟩ := hw.entries hwt ω
    obtain ⟨j, hj, hj1, hj2, hr⟩ := he p hp'
    obtain ⟨xs, e1, e2, e3, e4⟩ := hr r
    have hjJ : j ≤ J := by rw [hj] at hpJ; exact_mod_cast hpJ
    have hmem : j ∈ Icc 1 J := mem_Icc.2 ⟨hj1, hjJ⟩
    have hcard := hw.card hwt hR hj1 hj2
    refine ⟨xs, e1, fun h => by rw [h, List.length_nil] at e3; omega, fun y hy h0 => ?_, fun q hq => ?_⟩
    · obtain ⟨k, hk, rfl⟩ := e4 y hy
      exact hn (Or.inl (Set.mem_biUnion hmem (Set.mem_biUnion hk h0)))
    · rw [e2 (fun y => testF q.1 q.2 (y / √(c * τ p.1.toNat))), e3, hj, Int.toNat_natCast]
      by_contra hge
      push Not at hge
      exact hn (Or.inr (Set.mem_biUnion hmem (Set.mem_biUnion (List.mem_toFinset.2 hq) hge)))
  refine (measure_mono hsub).trans ((measure_union_le _ _).trans ?_)
  have hz : μ (⋃ j ∈ Icc 1 J, bad0 j) = 0 := by
    refine (measure_biUnion_null_iff (s := fun j => bad0 j) (Finset.countable_toSet (Icc 1 J))).2 ?_
    intro j hj
    obtain ⟨hj1, hj2⟩ := mem_Icc.1 hj
    obtain ⟨-, -, a3⟩ := hvar hc hw hR hj1 (hj2.trans (hJ ω₀))
    refine (measure_biUnion_null_iff (s := fun k => {ω | (w ω).wt_coefs.number j k r = 0})
      (Finset.countable_toSet (interior N wt.dec_hi.length j))).2 ?_
    intro k hk
    exact (a3 r k hk).2
  rw [hz, zero_add]
  have hN0 : (0:ℝ) < N := by
    have : 0 < 2 ^ J * (4 * wt.dec_hi.length + 2) := by positivity
    exact_mod_cast this.trans_le hN
  have hn0 : (0:ℝ) < (N : ℝ) / 2 ^ (J + 1) := by positivity
  calc μ (⋃ j ∈ Icc 1 J, ⋃ p ∈ F.toFinset, bad1 j p)
      ≤ ∑ j ∈ Icc 1 J, ∑ p ∈ F.toFinset, μ (bad1 j p) :=
        (measure_biUnion_finset_le _ _).trans (sum_le_sum fun j _ => measure_biUnion_finset_le _ _)
    _ ≤ ∑ j ∈ Icc 1 J, ∑ p ∈ F.toFinset, ENNReal.ofReal (D j p / ((N : ℝ) / 2 ^ (J + 1)) / η ^ 2) := by
        refine sum_le_sum fun j hj => sum_le_sum fun p hp' => ?_
        refine (hD j p (mem_Icc.1 hj).1 (List.mem_toFinset.1 hp') hc hw ((mem_Icc.1 hj).2.trans (hJ ω₀)) r).trans ?_
        refine ENNReal.ofReal_le_ofReal (div_le_div_of_nonneg_right ?_ (sq_nonneg _))
        exact div_le_div_of_nonneg_left (hD0 j p) hn0 (interior_card_half (mem_Icc.1 hj).1 (mem_Icc.1 hj).2 hN).1
    _ = ENNReal.ofReal (∑ j ∈ Icc 1 J, ∑ p ∈ F.toFinset, D j p / ((N : ℝ) / 2 ^ (J + 1)) / η ^ 2) := by
        have hnn : ∀ j p, 0 ≤ D j p / ((N : ℝ) / 2 ^ (J + 1)) / η ^ 2 := fun j p => by have := hD0 j p; positivity
        rw [ENNReal.ofReal_sum_of_nonneg fun j _ => sum_nonneg fun p _ => hnn j p]
        exact sum_congr rfl fun j _ => (ENNReal.ofReal_sum_of_nonneg fun p _ => hnn j p).symm
    _ = ENNReal.ofReal ((∑ j ∈ Icc 1 J, ∑ p ∈ F.toFinset, D j p) * 2 ^ (J + 1) / η ^ 2 / N) := by
        congr 1
        simp only [← sum_div]
        field_simp

end

end MFA
