import Verif.Lemmas.Typical
import Verif.Lemmas.Bank

/-!
# Consistency of the estimators on self-similar Gaussian signals
-/

namespace MFA

universe u

open Classical Finset MeasureTheory ProbabilityTheory

noncomputable section

variable {wt : Wavelet}

theorem arange_sum_le {j1 j2 : ℕ} (h12 : j1 < j2) {H K ε' : ℝ} (hH : 0 < H) (hK : 0 ≤ K) :
    ((arange (j1 : ℤ) ((j2 : ℤ) + 1)).map fun j : ℤ => ε' + K * (2:ℝ) ^ (-(2 * H * j))).sum ≤
      (j2 - j1 + 1) * ε' + K / (1 - (2:ℝ) ^ (-(2 * H))) * (2:ℝ) ^ (-(2 * H * j1)) := by
  have hρ0 : (0:ℝ) < (2:ℝ) ^ (-(2 * H)) := by positivity
  have hρ1 : (2:ℝ) ^ (-(2 * H)) < 1 := Real.rpow_lt_one_of_one_lt_of_neg (by norm_num) (by linarith)
  have hn : ((j2 : ℤ) + 1 - (j1 : ℤ)).toNat = j2 - j1 + 1 := by omega
  unfold arange
  rw [hn, List.map_map, list_sum_range]
  simp only [Function.comp_apply]
  rw [sum_add_distrib, sum_const, card_range, nsmul_eq_mul]
  have e : ∀ i ∈ range (j2 - j1 + 1), K * (2:ℝ) ^ (-(2 * H * (((j1 : ℤ) + (i : ℤ) : ℤ) : ℝ))) =
      K * (2:ℝ) ^ (-(2 * H * j1)) * ((2:ℝ) ^ (-(2 * H))) ^ i := by
    intro i _
    rw [mul_assoc K, ← Real.rpow_natCast, ← Real.rpow_mul (by norm_num), ← Real.rpow_add (by norm_num)]
    push_cast
    ring_nf
  rw [sum_congr rfl e, ← mul_sum]
  have hs : ∑ i ∈ range (j2 - j1 + 1), ((2:ℝ) ^ (-(2 * H))) ^ i ≤ (1 - (2:ℝ) ^ (-(2 * H)))⁻¹ := by
    rw [← tsum_geometric_of_lt_one hρ0.le hρ1]
    exact (summable_geometric_of_lt_one hρ0.le hρ1).sum_le_tsum _ fun i _ => by positivity
  refine add_le_add (le_of_eq ?_) ?_
  · congr 1
    rw [Nat.cast_add, Nat.cast_sub h12.le, Nat.cast_one]
  · refine (mul_le_mul_of_nonneg_left hs (by positivity)).trans (le_of_eq ?_)
    rw [div_eq_mul_inv]; ring

/-- **The slopes of all the statistics considered are simultaneously close to the true ones.** -/
theorem slopes_consistentG {M : ℕ} (hM : VanishingMoments wt.dec_hi M) (hM1 : 1 ≤ M) (hwt : wt.Valid) {G : ℤ → ℝ}
    {h' β : ℝ} (hK : ScalingKernel wt G h' β) (g nm : ℝ) : ∃ B : ℝ, 0 ≤ B ∧
    ∀ (F : List (ℝ × ℕ)), (∀ p ∈ F, -(1 / 2) < p.1) → ∀ (Ys : List ((List Fl → Fl) × ℝ × ℝ)), (∀ Y ∈ Ys, Asymptotic F Y.1 Y.2.1 Y.2.2) →
    ∀ (j1 j2 : ℕ), 1 ≤ j1 → j1 < j2 → ∀ ε δ : ℝ, 0 < ε → 0 < δ → ∃ N₀ : ℕ,
    ∀ {Ω : Type u} [MeasurableSpace Ω] {μ : Measure Ω} {c : ℝ} {R N : ℕ} {x : Ω → List (Fin R → ℝ)} {w : Ω → WT R}, 0 < c →
      IncrementAnalysis μ wt G c g nm N x w → N₀ ≤ N → (∀ ω, j2 ≤ (w ω).wt_coefs.values.length) → ∀ r,
      μ {ω | ¬ ∀ Y ∈ Ys, ∀ weighted, ∃ z, slopeL (subR (w ω).wt_coefs j1 j2) (fun p => (p.1 : ℝ)) (fun p => wtOf weighted p r)
          (fun p => Y.1 (col p.2 r)) = Fl.fin z ∧
        |z - Y.2.1 * (coefExponent h' g nm / 2)| ≤ |Y.2.1| * B * (2:ℝ) ^ (-(2 * β * j1)) + ε} ≤ ENNReal.ofReal δ := by
  obtain ⟨τ, V, B, hV, hB, hl⟩ := joint_llnG.{u} hM hM1 hwt hK g nm
  have h0 := hK.pos
  have hρ1 : (2:ℝ) ^ (-(2 * β)) < 1 := Real.rpow_lt_one_of_one_lt_of_neg (by norm_num) (by linarith)
  have hρ : 0 < 1 - (2:ℝ) ^ (-(2 * β)) := by linarith
  refine ⟨B / 2 / (1 - (2:ℝ) ^ (-(2 * β))), by positivity, ?_⟩
  intro F hF Ys hYs j1 j2 hj1 hj12 ε δ hε hδ
  have hnum : (0:ℝ) < (j2:ℝ) - j1 + 1 := by
    have : (j1 : ℝ) < j2 := by exact_mod_cast hj12
    linarith
  obtain ⟨ε', hε'd⟩ : ∃ ε', ε' = ε / ((j2:ℝ) - j1 + 1) := ⟨_, rfl⟩
  have hε' : 0 < ε' := by rw [hε'd]; positivity
  have hη : ∃ η > 0, ∀ Y ∈ Ys, ∀ (σ : ℝ) (c : List Fl) (xs : List ℝ), 0 < σ → Entries c xs → TypicalScale F η σ xs →
      ∃ t, Y.1 c = Fl.fin t ∧ |t - (Y.2.1 * Real.logb 2 σ + Y.2.2)| < ε' := by
    clear hl
    induction Ys with
    | nil => exact ⟨1, one_pos, fun _ h => by cases h⟩
    | cons Y Ys ih =>
      obtain ⟨η1, hη1, h1⟩ := ih fun Y' hY' => hYs Y' (List.mem_cons_of_mem _ hY')
      obtain ⟨η2, hη2, h2⟩ := hYs Y (by simp) ε' hε'
      refine ⟨min η1 η2, lt_min hη1 hη2, fun Y' hY' σ c xs hσ hc ht => ?_⟩
      rcases List.mem_cons.1 hY' with h | h
      · subst h
        exact h2 σ c xs hσ hc (typical_mono (min_le_right _ _) ht)
      · exact h1 Y' h σ c xs hσ hc (typical_mono (min_le_left _ _) ht)
  obtain ⟨η, hη, hYη⟩ := hη
  obtain ⟨N₀, hN₀⟩ := hl F hF j2 η δ hη hδ
  refine ⟨N₀, ?_⟩
  intro Ω _ μ c R N x w hc hw hN hJ r
  obtain ⟨hτ, hμ⟩ := hN₀ hc hw hN hJ r
  refine (measure_mono ?_).trans hμ
  intro ω hω
  simp only [Set.mem_ofPred_eq] at hω ⊢
  intro htyp
  apply hω
  intro Y hY weighted
  obtain ⟨hreg, -, -⟩ := hw.entries hwt ω
  have hreg' := hreg
  have ha1 : (1:ℤ) ≤ (j1 : ℤ) := by exact_mod_cast hj1
  have ha2 : (j1 : ℤ) ≤ (j2 : ℤ) := by exact_mod_cast hj12.le
  have ha3 : (j2 : ℤ) ≤ ((w ω).wt_coefs.values.length : ℤ) := by exact_mod_cast hJ ω
  have hkeys := hreg.sub_keys ha1 ha2 ha3
  have hkey : ∀ p ∈ subR (w ω).wt_coefs j1 j2, ∃ j : ℕ, p.1 = j ∧ j1 ≤ j ∧ j ≤ j2 := by
    intro p hp
    have : p.1 ∈ arange (j1 : ℤ) ((j2 : ℤ) + 1) := by rw [← hkeys]; exact List.mem_map.2 ⟨p, hp, rfl⟩
    unfold arange at this
    obtain ⟨i, hi, he⟩ := List.mem_map.1 this
    rw [List.mem_range] at hi
    exact ⟨j1 + i, by rw [← he]; push_cast; ring, by omega, by omega⟩
  have htwo := hreg.sub_two ha1 ha2 ha3 (by exact_mod_cast hj12)
  obtain ⟨z, hz, hzb⟩ := slopeL_near (subR (w ω).wt_coefs j1 j2) (fun p => p.1) (fun p => wtOf weighted p r)
    (fun p hp => by
      obtain ⟨j, hj, hj1', hj2'⟩ := hkey p hp
      obtain ⟨xs, hxs, ht⟩ := htyp p (sub_mem hp) (by rw [hj]; exact_mod_cast hj2')
      unfold wtOf
      split
      · rw [hxs.count]
        exact_mod_cast List.length_pos_iff.2 ht.1
      · exact one_pos)
    (by
      obtain ⟨p, hp, p', hp', hne⟩ := htwo
      exact ⟨p, hp, p', hp', fun h => hne (by rw [h])⟩)
    (fun p => Y.1 (col p.2 r))
    (Y.2.1 * ((Real.logb 2 c + Real.logb 2 V) / 2) + Y.2.2) (Y.2.1 * (coefExponent h' g nm / 2))
    (fun p => ε' + |Y.2.1| * B / 2 * (2:ℝ) ^ (-(2 * β * p.1)))
    (fun p hp => by
      obtain ⟨j, hj, hj1', hj2'⟩ := hkey p hp
      obtain ⟨xs, hxs, ht⟩ := htyp p (sub_mem hp) (by rw [hj]; exact_mod_cast hj2')
      obtain ⟨t1, t2⟩ := hτ j (hj1.trans hj1') hj2'
      rw [hj, Int.toNat_natCast] at ht
      obtain ⟨t, ht1, ht2⟩ := hYη Y hY _ _ xs (Real.sqrt_pos.2 (mul_pos hc t1)) hxs ht
      refine ⟨t, ht1, ?_⟩
      rw [hj]
      have hs : Real.logb 2 √(c * τ j) = (Real.logb 2 c + Real.logb 2 (τ j)) / 2 := by
        rw [Real.sqrt_eq_rpow, Real.logb_rpow_eq_mul_logb_of_pos (mul_pos hc t1), Real.logb_mul hc.ne' t1.ne']; ring
      rw [hs] at ht2
      have e : t - (Y.2.1 * ((Real.logb 2 c + Real.logb 2 V) / 2) + Y.2.2 + Y.2.1 * (coefExponent h' g nm / 2) * ((j : ℤ) : ℝ)) =
          (t - (Y.2.1 * ((Real.logb 2 c + Real.logb 2 (τ j)) / 2) + Y.2.2)) +
          Y.2.1 / 2 * (Real.logb 2 (τ j) - (Real.logb 2 V + j * coefExponent h' g nm)) := by
        push_cast; ring
      rw [e]
      refine (abs_add_le _ _).trans (add_le_add ht2.le ?_)
      rw [abs_mul, abs_div, abs_of_pos (by norm_num : (0:ℝ) < 2)]
      refine (mul_le_mul_of_nonneg_left t2 (by positivity)).trans (le_of_eq ?_)
      push_cast; ring)
  refine ⟨z, hz, hzb.trans ?_⟩
  have hsum : ((subR (w ω).wt_coefs j1 j2).map fun p => ε' + |Y.2.1| * B / 2 * (2:ℝ) ^ (-(2 * β * p.1))) =
      (arange (j1 : ℤ) ((j2 : ℤ) + 1)).map fun j : ℤ => ε' + |Y.2.1| * B / 2 * (2:ℝ) ^ (-(2 * β * j)) := by
    rw [← hkeys, List.map_map]; rfl
  rw [hsum]
  refine (arange_sum_le hj12 h0 (by positivity)).trans (le_of_eq ?_)
  rw [hε'd]
  field_simp
  ring


/-- **The slopes of all the statistics considered are simultaneously close to the true ones.** -/
theorem slopes_consistent {M : ℕ} (hM : VanishingMoments wt.dec_hi M) (hM1 : 1 ≤ M) (hwt : wt.Valid) (ho : OrthonormalBank wt) {H : ℝ}
    (h0 : 0 < H) (h1 : H < 1) (hH : 4 * H - 4 * M < -1) (g nm : ℝ) : ∃ B : ℝ, 0 ≤ B ∧
    ∀ (F : List (ℝ × ℕ)), (∀ p ∈ F, -(1 / 2) < p.1) → ∀ (Ys : List ((List Fl → Fl) × ℝ × ℝ)), (∀ Y ∈ Ys, Asymptotic F Y.1 Y.2.1 Y.2.2) →
    ∀ (j1 j2 : ℕ), 1 ≤ j1 → j1 < j2 → ∀ ε δ : ℝ, 0 < ε → 0 < δ → ∃ N₀ : ℕ,
    ∀ {Ω : Type u} [MeasurableSpace Ω] {μ : Measure Ω} {c : ℝ} {R N : ℕ} {x : Ω → List (Fin R → ℝ)} {w : Ω → WT R}, 0 < c →
      PowerLawAnalysis μ wt H c g nm N x w → N₀ ≤ N → (∀ ω, j2 ≤ (w ω).wt_coefs.values.length) → ∀ r,
      μ {ω | ¬ ∀ Y ∈ Ys, ∀ weighted, ∃ z, slopeL (subR (w ω).wt_coefs j1 j2) (fun p => (p.1 : ℝ)) (fun p => wtOf weighted p r)
          (fun p => Y.1 (col p.2 r)) = Fl.fin z ∧
        |z - Y.2.1 * (coefExponent H g nm / 2)| ≤ |Y.2.1| * B * (2:ℝ) ^ (-(2 * H * j1)) + ε} ≤ ENNReal.ofReal δ := by
  obtain ⟨B, hB, h⟩ := slopes_consistentG.{u} hM hM1 hwt (powerLaw_kernel hM hM1 hwt ho h0 h1 hH) g nm
  refine ⟨B, hB, fun F hF Ys hYs j1 j2 hj1 hj12 ε δ hε hδ => ?_⟩
  obtain ⟨N₀, hN₀⟩ := h F hF Ys hYs j1 j2 hj1 hj12 ε δ hε hδ
  exact ⟨N₀, fun hc hw => hN₀ hc hw.toIncrement⟩

theorem log2e_eq : log2e = (Real.log 2)⁻¹ := by
  unfold log2e Real.logb
  rw [Real.log_exp, one_div]

theorem zetaF_cols {R : ℕ} (m : MRQ R) (j1 j2 : ℤ) (weighted : Bool) (e : Expo) (r : Fin R) : zetaF m j1 j2 weighted e r =
    slopeL (subR m j1 j2) (fun p => (p.1 : ℝ)) (fun p => wtOf weighted p r)
      (fun p => (nanmean (((col p.2 r).map Fl.abs).map (fastPower e))).log2) := by
  unfold zetaF
  refine slopeL_congr (fun _ _ => rfl) (fun _ _ => rfl) fun p _ => ?_
  rw [sfMean, red, col_mapArr, col_mapArr]

/-- The test functions needed for the exponents `q` and the cumulants up to order `n`. -/
def testList (q : List ℝ) (n : ℕ) : List (ℝ × ℕ) :=
  q.map (fun e => (e, 0)) ++ q.map (fun e => (e, 1)) ++ (List.range (n + 1)).map fun k => (0, k)

theorem testList_gt {q : List ℝ} {n : ℕ} (hq : ∀ e ∈ q, -(1 / 2) < e) : ∀ p ∈ testList q n, -(1 / 2) < p.1 := by
  intro p hp
  simp only [testList, List.mem_append, List.mem_map] at hp
  rcases hp with (⟨e, he, rfl⟩ | ⟨e, he, rfl⟩) | ⟨k, -, rfl⟩
  · exact hq e he
  · exact hq e he
  · norm_num

/-- The statistics needed for the exponents `q` and the cumulants up to order `n`. -/
def statList (q : List ℝ) (n : ℕ) : List ((List Fl → Fl) × ℝ × ℝ) :=
  q.map (fun e => ((fun c => (nanmean ((c.map Fl.abs).map (fastPower (.real e)))).log2), e, Real.logb 2 (normalMoment e 0))) ++
  q.map (fun e => ((fun c => msV c (.real e)), 1, normalMoment e 1 / normalMoment e 0 / Real.log 2)) ++
  q.map (fun e => ((fun c => msU (countNotNaN c) c (.real e)), 0,
    e * (normalMoment e 1 / normalMoment e 0 / Real.log 2) - Real.logb 2 (normalMoment e 0))) ++
  (List.range n).map fun i => ((fun c => (cmColumn (c.map fun x => x.abs.ln) n).getD i Fl.nan), (if i = 0 then Real.log 2 else 0), logCumulant (i + 1))

theorem statList_asymptotic {q : List ℝ} {n : ℕ} (hq : ∀ e ∈ q, -(1 / 2) < e) :
    ∀ Y ∈ statList q n, Asymptotic (testList q n) Y.1 Y.2.1 Y.2.2 := by
  have m0 : ∀ e ∈ q, (e, 0) ∈ testList q n := fun e he => by simp [testList, he]
  have m1 : ∀ e ∈ q, (e, 1) ∈ testList q n := fun e he => by simp [testList, he]
  intro Y hY
  simp only [statList, List.mem_append, List.mem_map] at hY
  rcases hY with ((⟨e, he, rfl⟩ | ⟨e, he, rfl⟩) | ⟨e, he, rfl⟩) | ⟨i, hi, rfl⟩
  · exact asymptotic_structure (e := .real e) (m0 e he) (by have := hq e he; show -1 < e; linarith)
  · exact asymptotic_V (e := .real e) (m0 e he) (m1 e he) (by have := hq e he; show -1 < e; linarith)
  · exact asymptotic_U (e := .real e) (m0 e he) (m1 e he) (by have := hq e he; show -1 < e; linarith)
  · refine asymptotic_cumulant (fun k hk => ?_) (List.mem_range.1 hi)
    simp only [testList, List.mem_append, List.mem_map, List.mem_range]
    exact Or.inr ⟨k, by omega, rfl⟩

/-- All the estimates of one analysis: with probability at least `1 - δ` they are simultaneously close to the truth. -/
theorem estimates_consistentG {M : ℕ} (hM : VanishingMoments wt.dec_hi M) (hM1 : 1 ≤ M) (hwt : wt.Valid) {G : ℤ → ℝ}
    {h' β : ℝ} (hK : ScalingKernel wt G h' β) (g nm : ℝ) : ∃ B : ℝ, 0 ≤ B ∧
    ∀ (q : List ℝ) (n : ℕ), (∀ e ∈ q, -(1 / 2) < e) → ∀ (j1 j2 : ℕ), 1 ≤ j1 → j1 < j2 → ∀ ε δ : ℝ, 0 < ε → 0 < δ → ∃ N₀ : ℕ,
    ∀ {Ω : Type u} [MeasurableSpace Ω] {μ : Measure Ω} {c : ℝ} {R N : ℕ} {x : Ω → List (Fin R → ℝ)} {w : Ω → WT R}, 0 < c →
      IncrementAnalysis μ wt G c g nm N x w → N₀ ≤ N → (∀ ω, j2 ≤ (w ω).wt_coefs.values.length) → ∀ r,
      μ {ω | ¬ ∀ weighted,
        (∀ e ∈ q, Near (zetaF (w ω).wt_coefs j1 j2 weighted (.real e) r) (e * (coefExponent h' g nm / 2)) (|e| * B * (2:ℝ) ^ (-(2 * β * j1)) + ε)) ∧
        (∀ e ∈ q, Near (vF (w ω).wt_coefs j1 j2 weighted (.real e) r) (coefExponent h' g nm / 2) (B * (2:ℝ) ^ (-(2 * β * j1)) + ε)) ∧
        (∀ e ∈ q, Near (Fl.fin 1 + uF (w ω).wt_coefs j1 j2 weighted (.real e) r) 1 ε) ∧
        (0 < n → Near (cumF (w ω).wt_coefs j1 j2 weighted n 0 r * Fl.fin log2e) (coefExponent h' g nm / 2) (B * (2:ℝ) ^ (-(2 * β * j1)) + ε)) ∧
        ∀ i, 1 ≤ i → i < n → Near (cumF (w ω).wt_coefs j1 j2 weighted n i r * Fl.fin log2e) 0 ε} ≤ ENNReal.ofReal δ := by
  obtain ⟨B, hB, h⟩ := slopes_consistentG.{u} hM hM1 hwt hK g nm
  refine ⟨B, hB, ?_⟩
  intro q n hq j1 j2 hj1 hj12 ε δ hε hδ
  have hlog : 0 < Real.log 2 := Real.log_pos (by norm_num)
  have hlog1 : Real.log 2 ≤ 1 := by have := Real.log_le_sub_one_of_pos (show (0:ℝ) < 2 by norm_num); linarith
  obtain ⟨N₀, hN₀⟩ := h (testList q n) (testList_gt hq) (statList q n) (statList_asymptotic hq) j1 j2 hj1 hj12 (ε * Real.log 2) δ (by positivity) hδ
  refine ⟨N₀, ?_⟩
  intro Ω _ μ c R N x w hc hw hN hJ r
  refine (measure_mono ?_).trans (hN₀ hc hw hN hJ r)
  intro ω hω
  simp only [Set.mem_ofPred_eq] at hω ⊢
  intro hall
  apply hω
  intro weighted
  have hsmall : ε * Real.log 2 ≤ ε := by nlinarith
  have key : ∀ Y ∈ statList q n, ∃ z, slopeL (subR (w ω).wt_coefs j1 j2) (fun p => (p.1 : ℝ)) (fun p => wtOf weighted p r)
          (fun p => Y.1 (col p.2 r)) = Fl.fin z ∧
        |z - Y.2.1 * (coefExponent h' g nm / 2)| ≤ |Y.2.1| * B * (2:ℝ) ^ (-(2 * β * j1)) + ε * Real.log 2 := fun Y hY => hall Y hY weighted
  clear hall hω
  have kc : ∀ i, i < n → ∃ z, cumF (w ω).wt_coefs j1 j2 weighted n i r = Fl.fin z ∧
      |z - (if i = 0 then Real.log 2 else 0) * (coefExponent h' g nm / 2)| ≤ |if i = 0 then Real.log 2 else 0| * B * (2:ℝ) ^ (-(2 * β * j1)) + ε * Real.log 2 := by
    intro i hi
    exact key ((fun c => (cmColumn (c.map fun x => x.abs.ln) n).getD i Fl.nan), (if i = 0 then Real.log 2 else 0), logCumulant (i + 1))
      (by
        simp only [statList, List.mem_append, List.mem_map]
        exact Or.inr ⟨i, List.mem_range.2 hi, rfl⟩)
  refine ⟨fun e he => ?_, fun e he => ?_, fun e he => ?_, fun hn => ?_, fun i hi1 hi => ?_⟩
  · obtain ⟨z, hz, hb⟩ := key ((fun c => (nanmean ((c.map Fl.abs).map (fastPower (.real e)))).log2), e, Real.logb 2 (normalMoment e 0))
      (by simp only [statList, List.mem_append, List.mem_map]; exact Or.inl (Or.inl (Or.inl ⟨e, he, rfl⟩)))
    rw [zetaF_cols]
    exact ⟨z, hz, hb.trans (by simpa using hsmall)⟩
  · obtain ⟨z, hz, hb⟩ := key ((fun c => msV c (.real e)), 1, normalMoment e 1 / normalMoment e 0 / Real.log 2)
      (by simp only [statList, List.mem_append, List.mem_map]; exact Or.inl (Or.inl (Or.inr ⟨e, he, rfl⟩)))
    refine ⟨z, hz, ?_⟩
    rw [one_mul, abs_one, one_mul] at hb
    linarith
  · obtain ⟨z, hz, hb⟩ := key ((fun c => msU (countNotNaN c) c (.real e)), 0,
        e * (normalMoment e 1 / normalMoment e 0 / Real.log 2) - Real.logb 2 (normalMoment e 0))
      (by simp only [statList, List.mem_append, List.mem_map]; exact Or.inl (Or.inr ⟨e, he, rfl⟩))
    have hz' : uF (w ω).wt_coefs j1 j2 weighted (.real e) r = Fl.fin z := hz
    refine ⟨1 + z, by rw [hz', Fl.fin_add], ?_⟩
    simp only [zero_mul, abs_zero, sub_zero, zero_add] at hb
    rw [show 1 + z - 1 = z by ring]
    linarith
  · obtain ⟨z, hz, hb⟩ := kc 0 hn
    refine ⟨z * log2e, by rw [hz, Fl.fin_mul], ?_⟩
    rw [if_pos rfl, abs_of_pos hlog] at hb
    rw [log2e_eq, show z * (Real.log 2)⁻¹ - coefExponent h' g nm / 2 = (z - Real.log 2 * (coefExponent h' g nm / 2)) * (Real.log 2)⁻¹ by
      field_simp, abs_mul, abs_of_pos (inv_pos.2 hlog)]
    refine (mul_le_mul_of_nonneg_right hb (inv_pos.2 hlog).le).trans (le_of_eq ?_)
    field_simp
  · obtain ⟨z, hz, hb⟩ := kc i hi
    refine ⟨z * log2e, by rw [hz, Fl.fin_mul], ?_⟩
    rw [if_neg (by omega)] at hb
    simp only [zero_mul, abs_zero, sub_zero, zero_add] at hb
    rw [log2e_eq, sub_zero, abs_mul, abs_of_pos (inv_pos.2 hlog)]
    refine (mul_le_mul_of_nonneg_right hb (inv_pos.2 hlog).le).trans (le_of_eq ?_)
    field_simp

/-- All the estimates of one analysis: with probability at least `1 - δ` they are simultaneously close to the truth. -/
theorem estimates_consistent {M : ℕ} (hM : VanishingMoments wt.dec_hi M) (hM1 : 1 ≤ M) (hwt : wt.Valid) (ho : OrthonormalBank wt) {H : ℝ}
    (h0 : 0 < H) (h1 : H < 1) (hH : 4 * H - 4 * M < -1) (g nm : ℝ) : ∃ B : ℝ, 0 ≤ B ∧
    ∀ (q : List ℝ) (n : ℕ), (∀ e ∈ q, -(1 / 2) < e) → ∀ (j1 j2 : ℕ), 1 ≤ j1 → j1 < j2 → ∀ ε δ : ℝ, 0 < ε → 0 < δ → ∃ N₀ : ℕ,
    ∀ {Ω : Type u} [MeasurableSpace Ω] {μ : Measure Ω} {c : ℝ} {R N : ℕ} {x : Ω → List (Fin R → ℝ)} {w : Ω → WT R}, 0 < c →
      PowerLawAnalysis μ wt H c g nm N x w → N₀ ≤ N → (∀ ω, j2 ≤ (w ω).wt_coefs.values.length) → ∀ r,
      μ {ω | ¬ ∀ weighted,
        (∀ e ∈ q, Near (zetaF (w ω).wt_coefs j1 j2 weighted (.real e) r) (e * (coefExponent H g nm / 2)) (|e| * B * (2:ℝ) ^ (-(2 * H * j1)) + ε)) ∧
        (∀ e ∈ q, Near (vF (w ω).wt_coefs j1 j2 weighted (.real e) r) (coefExponent H g nm / 2) (B * (2:ℝ) ^ (-(2 * H * j1)) + ε)) ∧
        (∀ e ∈ q, Near (Fl.fin 1 + uF (w ω).wt_coefs j1 j2 weighted (.real e) r) 1 ε) ∧
        (0 < n → Near (cumF (w ω).wt_coefs j1 j2 weighted n 0 r * Fl.fin log2e) (coefExponent H g nm / 2) (B * (2:ℝ) ^ (-(2 * H * j1)) + ε)) ∧
        ∀ i, 1 ≤ i → i < n → Near (cumF (w ω).wt_coefs j1 j2 weighted n i r * Fl.fin log2e) 0 ε} ≤ ENNReal.ofReal δ := by
  obtain ⟨B, hB, h⟩ := estimates_consistentG.{u} hM hM1 hwt (powerLaw_kernel hM hM1 hwt ho h0 h1 hH) g nm
  refine ⟨B, hB, fun q n hq j1 j2 hj1 hj12 ε δ hε hδ => ?_⟩
  obtain ⟨N₀, hN₀⟩ := h q n hq j1 j2 hj1 hj12 ε δ hε hδ
  exact ⟨N₀, fun hc hw => hN₀ hc hw.toIncrement⟩

/-- **C98** the scaling exponents and the Hurst exponent.  For a Gaussian signal with stationary increments and variogram
`2c|t|^(2H)`, an orthonormal wavelet with `M` vanishing moments and any scales `j1 < j2`: with probability as close to 1 as desired,
when the signal is long enough, `StructureFunction` returns, for every exponent `q > -1/2` of the array (which contains 2), a
`zeta(q)` within `|q| B 2^(-2H j1) + ε` of `q (H + gamint + 1 - 1/normalization)`, and a `H` within `B 2^(-2H j1) + ε` of
`H + 1 - 1/normalization`.  `B` depends on nothing but the wavelet, `H`, `gamint` and `normalization`; the length needed does
not depend on `c` or on the number of realisations. -/
theorem C98_exponents {M : ℕ} (hM : VanishingMoments wt.dec_hi M) (hM1 : 1 ≤ M) (hwt : wt.Valid) (ho : OrthonormalBank wt) {H : ℝ}
    (h0 : 0 < H) (h1 : H < 1) (hH : 4 * H - 4 * M < -1) (g nm : ℝ) : ∃ B : ℝ, 0 ≤ B ∧
    ∀ (q : List ℝ), (2:ℝ) ∈ q → (∀ e ∈ q, -(1 / 2) < e) → ∀ (j1 j2 : ℕ), 1 ≤ j1 → j1 < j2 → ∀ ε δ : ℝ, 0 < ε → 0 < δ → ∃ N₀ : ℕ,
    ∀ {Ω : Type u} [MeasurableSpace Ω] {μ : Measure Ω} {c : ℝ} {R N : ℕ} {x : Ω → List (Fin R → ℝ)} {w : Ω → WT R}, 0 < c →
      PowerLawAnalysis μ wt H c g nm N x w → N₀ ≤ N → (∀ ω, j2 ≤ (w ω).wt_coefs.values.length) → ∀ (weighted : Bool) (r : Fin R),
      μ {ω | ¬ ∃ s, StructFn.make (w ω).wt_coefs (.ndarray q) j1 j2 weighted = .ok s ∧
        (∀ (i : ℕ) (e : ℝ), q[i]? = some e → ∃ z, s.zeta[i]? = some z ∧
          Near (z r) (e * (H + g + 1 - 1 / nm)) (|e| * B * (2:ℝ) ^ (-(2 * H * j1)) + ε)) ∧
        Near (s.H r) (H + 1 - 1 / nm) (B * (2:ℝ) ^ (-(2 * H * j1)) + ε)} ≤ ENNReal.ofReal δ := by
  obtain ⟨B, hB, h⟩ := estimates_consistent.{u} hM hM1 hwt ho h0 h1 hH g nm
  refine ⟨B, hB, ?_⟩
  intro q h2 hq j1 j2 hj1 hj12 ε δ hε hδ
  obtain ⟨N₀, hN₀⟩ := h q 0 hq j1 j2 hj1 hj12 ε δ hε hδ
  refine ⟨N₀, ?_⟩
  intro Ω _ μ c R N x w hc hw hN hJ weighted r
  refine (measure_mono ?_).trans (hN₀ hc hw hN hJ r)
  intro ω hω
  simp only [Set.mem_ofPred_eq] at hω ⊢
  intro hall
  apply hω
  obtain ⟨hz, -⟩ := hall weighted
  obtain ⟨hreg, hg, -⟩ := hw.entries hwt ω
  have hb : coefExponent H g nm / 2 = H + g + 1 - 1 / nm := by unfold coefExponent; ring
  refine ⟨_, hreg.structFn (by exact_mod_cast hj1) (by exact_mod_cast hj12.le) (by exact_mod_cast hJ ω) weighted q h2, ?_, ?_⟩
  · intro i e he
    refine ⟨zetaF (w ω).wt_coefs j1 j2 weighted (.real e), by simp only [List.getElem?_map, he, Option.map_some], ?_⟩
    rw [← hb]
    exact hz e (List.mem_of_getElem? he)
  · obtain ⟨t, ht, htb⟩ := hz 2 h2
    refine ⟨t / 2 - g, ?_, ?_⟩
    · show zetaF _ _ _ _ _ _ / Fl.fin 2 - Fl.fin (w ω).wt_coefs.gamint = _
      rw [ht, hg, Fl.fin_div two_ne_zero, Fl.fin_sub]
    · rw [hb] at htb
      rw [show t / 2 - g - (H + 1 - 1 / nm) = (t - 2 * (H + g + 1 - 1 / nm)) / 2 by ring, abs_div, abs_two, div_le_iff₀ (by norm_num)]
      rw [abs_two] at htb
      linarith

/-- **C99** the log-cumulants: `c1` is within `B 2^(-2H j1) + ε` of `H + gamint + 1 - 1/normalization`, and all the higher ones are
within `ε` of 0 (no bias), with probability as close to 1 as desired when the signal is long enough. -/
theorem C99_cumulants {M : ℕ} (hM : VanishingMoments wt.dec_hi M) (hM1 : 1 ≤ M) (hwt : wt.Valid) (ho : OrthonormalBank wt) {H : ℝ}
    (h0 : 0 < H) (h1 : H < 1) (hH : 4 * H - 4 * M < -1) (g nm : ℝ) : ∃ B : ℝ, 0 ≤ B ∧
    ∀ (n j1 j2 : ℕ), 1 ≤ j1 → j1 < j2 → ∀ ε δ : ℝ, 0 < ε → 0 < δ → ∃ N₀ : ℕ,
    ∀ {Ω : Type u} [MeasurableSpace Ω] {μ : Measure Ω} {c : ℝ} {R N : ℕ} {x : Ω → List (Fin R → ℝ)} {w : Ω → WT R}, 0 < c →
      PowerLawAnalysis μ wt H c g nm N x w → N₀ ≤ N → (∀ ω, j2 ≤ (w ω).wt_coefs.values.length) → ∀ (weighted : Bool) (r : Fin R),
      μ {ω | ¬ ∃ s, Cumulants.make (w ω).wt_coefs n j1 j2 weighted = .ok s ∧ ∀ i, i < n → ∃ c, s.log_cumulants[i]? = some c ∧
        if i = 0 then Near (c r) (H + g + 1 - 1 / nm) (B * (2:ℝ) ^ (-(2 * H * j1)) + ε) else Near (c r) 0 ε} ≤ ENNReal.ofReal δ := by
  obtain ⟨B, hB, h⟩ := estimates_consistent.{u} hM hM1 hwt ho h0 h1 hH g nm
  refine ⟨B, hB, ?_⟩
  intro n j1 j2 hj1 hj12 ε δ hε hδ
  obtain ⟨N₀, hN₀⟩ := h [] n (by simp) j1 j2 hj1 hj12 ε δ hε hδ
  refine ⟨N₀, ?_⟩
  intro Ω _ μ c R N x w hc hw hN hJ weighted r
  refine (measure_mono ?_).trans (hN₀ hc hw hN hJ r)
  intro ω hω
  simp only [Set.mem_ofPred_eq] at hω ⊢
  intro hall
  apply hω
  obtain ⟨-, -, -, hc1, hcp⟩ := hall weighted
  obtain ⟨hreg, hg, -⟩ := hw.entries hwt ω
  have hb : coefExponent H g nm / 2 = H + g + 1 - 1 / nm := by unfold coefExponent; ring
  refine ⟨_, hreg.cumulants (by exact_mod_cast hj1) (by exact_mod_cast hj12.le) (by exact_mod_cast hJ ω) weighted n, ?_⟩
  intro i hi
  refine ⟨fun r => cumF (w ω).wt_coefs j1 j2 weighted n i r * Fl.fin log2e,
    by simp only [List.getElem?_map, List.getElem?_range hi, Option.map_some], ?_⟩
  split
  · rename_i h; subst h
    rw [← hb]; exact hc1 hi
  · exact hcp i (by omega) hi

/-- **C100** the multifractal spectrum: for every exponent `q > -1/2`, `h(q)` is within `B 2^(-2H j1) + ε` of
`H + gamint + 1 - 1/normalization` and `D(q)` within `ε` of 1: the estimated spectrum concentrates on the single point of a
monofractal signal. -/
theorem C100_spectrum {M : ℕ} (hM : VanishingMoments wt.dec_hi M) (hM1 : 1 ≤ M) (hwt : wt.Valid) (ho : OrthonormalBank wt) {H : ℝ}
    (h0 : 0 < H) (h1 : H < 1) (hH : 4 * H - 4 * M < -1) (g nm : ℝ) : ∃ B : ℝ, 0 ≤ B ∧
    ∀ (q : List ℝ), q ≠ [] → (∀ e ∈ q, -(1 / 2) < e) → ∀ (j1 j2 : ℕ), 1 ≤ j1 → j1 < j2 → ∀ ε δ : ℝ, 0 < ε → 0 < δ → ∃ N₀ : ℕ,
    ∀ {Ω : Type u} [MeasurableSpace Ω] {μ : Measure Ω} {c : ℝ} {R N : ℕ} {x : Ω → List (Fin R → ℝ)} {w : Ω → WT R}, 0 < c →
      PowerLawAnalysis μ wt H c g nm N x w → N₀ ≤ N → (∀ ω, j2 ≤ (w ω).wt_coefs.values.length) → ∀ (weighted : Bool) (r : Fin R),
      μ {ω | ¬ ∃ s, Spectrum.make (w ω).wt_coefs j1 j2 weighted (.ndarray q) = .ok s ∧ ∀ i, i < q.length → ∃ hq Dq,
        s.hq[i]? = some hq ∧ s.Dq[i]? = some Dq ∧ Near (hq r) (H + g + 1 - 1 / nm) (B * (2:ℝ) ^ (-(2 * H * j1)) + ε) ∧
        Near (Dq r) 1 ε} ≤ ENNReal.ofReal δ := by
  obtain ⟨B, hB, h⟩ := estimates_consistent.{u} hM hM1 hwt ho h0 h1 hH g nm
  refine ⟨B, hB, ?_⟩
  intro q hne hq j1 j2 hj1 hj12 ε δ hε hδ
  obtain ⟨N₀, hN₀⟩ := h q 0 hq j1 j2 hj1 hj12 ε δ hε hδ
  refine ⟨N₀, ?_⟩
  intro Ω _ μ c R N x w hc hw hN hJ weighted r
  refine (measure_mono ?_).trans (hN₀ hc hw hN hJ r)
  intro ω hω
  simp only [Set.mem_ofPred_eq] at hω ⊢
  intro hall
  apply hω
  obtain ⟨-, hv, hu, -⟩ := hall weighted
  obtain ⟨hreg, hg, -⟩ := hw.entries hwt ω
  have hb : coefExponent H g nm / 2 = H + g + 1 - 1 / nm := by unfold coefExponent; ring
  refine ⟨_, hreg.spectrum (by exact_mod_cast hj1) (by exact_mod_cast hj12.le) (by exact_mod_cast hJ ω) weighted (.ndarray q)
    (by rw [expos_ndarray]; simpa using hne), ?_⟩
  intro i hi
  have hqi : q[i]? = some q[i] := List.getElem?_eq_getElem hi
  refine ⟨vF (w ω).wt_coefs j1 j2 weighted (.real q[i]), fun r => Fl.fin 1 + uF (w ω).wt_coefs j1 j2 weighted (.real q[i]) r,
    by simp only [expos_ndarray, List.getElem?_map, hqi, Option.map_some],
    by simp only [expos_ndarray, List.getElem?_map, hqi, Option.map_some], ?_, ?_⟩
  · rw [← hb]; exact hv q[i] (List.getElem_mem hi)
  · exact hu q[i] (List.getElem_mem hi)

end

end MFA
