import Verif.Lemmas.Typical

/-! Averages of test functions under perturbations that are small in mean `P`-th power. -/

namespace MFA

open Filter Topology

noncomputable section

/-- A continuous function of growth `|t|^m` moves little under a perturbation, up to the `m+1`-th powers of the argument and of the perturbation. -/
theorem growth_diff {f : ℝ → ℝ} (hf : Continuous f) {A : ℝ} (hA : 0 ≤ A) {m : ℕ} (hg : ∀ t, |f t| ≤ A * (1 + |t| ^ m)) {ε : ℝ} (hε : 0 < ε) :
    ∃ C : ℝ, 0 ≤ C ∧ ∀ t t' : ℝ, |f t' - f t| ≤ ε * (1 + |t| ^ (m + 1)) + C * |t' - t| ^ (m + 1) := by
  obtain ⟨B, hB⟩ : ∃ B, B = A * (3 + 2 ^ m) := ⟨_, rfl⟩
  have hB0 : 0 ≤ B := by rw [hB]; positivity
  obtain ⟨K, hK⟩ : ∃ K, K = 1 + B / ε := ⟨_, rfl⟩
  have hK1 : 1 ≤ K := by rw [hK]; have : 0 ≤ B / ε := by positivity
                         linarith
  have huc := (isCompact_Icc (a := -(K + 1)) (b := K + 1)).uniformContinuousOn_of_continuous hf.continuousOn
  obtain ⟨γ', hγ', huc⟩ := Metric.uniformContinuousOn_iff.1 huc ε hε
  obtain ⟨γ, hγd⟩ : ∃ γ, γ = min (γ' / 2) 1 := ⟨_, rfl⟩
  have hγ : 0 < γ := by rw [hγd]; positivity
  have hγ1 : γ ≤ 1 := by rw [hγd]; exact min_le_right _ _
  have hγ2 : γ < γ' := by rw [hγd]; exact (min_le_left _ _).trans_lt (half_lt_self hγ')
  obtain ⟨D, hD⟩ : ∃ D, D = A * (2 + K ^ m + (K + γ) ^ m) / γ ^ (m + 1) := ⟨_, rfl⟩
  have hK0 : 0 ≤ K := by linarith
  have hD0 : 0 ≤ D := by rw [hD]; positivity
  refine ⟨B + D, by positivity, fun t t' => ?_⟩
  have ha : 0 ≤ |t| := abs_nonneg t
  have hd : 0 ≤ |t' - t| := abs_nonneg _
  have ht' : |t'| ≤ |t| + |t' - t| := by
    have := abs_add_le t (t' - t)
    rwa [add_sub_cancel] at this
  generalize hae : |t| = a at *
  generalize hde : |t' - t| = d at *
  have hpa : 0 ≤ a ^ (m + 1) := by positivity
  have hpd : 0 ≤ d ^ (m + 1) := by positivity
  have hft : |f t| ≤ A * (1 + a ^ m) := by rw [← hae]; exact hg t
  have hft' : |f t'| ≤ A * (1 + (a + d) ^ m) := (hg t').trans (mul_le_mul_of_nonneg_left (by gcongr) hA)
  have htri : |f t' - f t| ≤ |f t'| + |f t| := abs_sub _ _
  have hbig : |f t' - f t| ≤ A * (2 + a ^ m + (a + d) ^ m) := by linarith
  rcases le_or_gt a K with hak | hak
  · rcases le_or_gt d γ with hdg | hdg
    · have h1 := huc t ⟨by have := neg_abs_le t; rw [hae] at this; linarith, by have := le_abs_self t; rw [hae] at this; linarith⟩
        t' ⟨by have := neg_abs_le t'; linarith, by have := le_abs_self t'; linarith⟩
        (by rw [dist_comm, Real.dist_eq, hde]; linarith)
      rw [dist_comm, Real.dist_eq] at h1
      have h2 : 0 ≤ ε * a ^ (m + 1) := by positivity
      have h3 : 0 ≤ (B + D) * d ^ (m + 1) := by positivity
      linarith
    · have hs : 1 ≤ d / γ := by rw [le_div_iff₀ hγ]; linarith
      have e1 : a + d ≤ (K + γ) * (d / γ) := by
        have : K ≤ K * (d / γ) := le_mul_of_one_le_right hK0 hs
        have e : (K + γ) * (d / γ) = K * (d / γ) + d := by field_simp
        linarith
      have e2 : (a + d) ^ m ≤ (K + γ) ^ m * (d / γ) ^ (m + 1) := by
        refine (pow_le_pow_left₀ (by positivity) e1 m).trans ?_
        rw [mul_pow]
        exact mul_le_mul_of_nonneg_left (pow_le_pow_right₀ hs (by omega)) (by positivity)
      have e3 : 2 + a ^ m ≤ (2 + K ^ m) * (d / γ) ^ (m + 1) := by
        have h1 : a ^ m ≤ K ^ m := pow_le_pow_left₀ ha hak m
        have h2 : 1 ≤ (d / γ) ^ (m + 1) := one_le_pow₀ hs
        have h3 : (2 + K ^ m) * 1 ≤ (2 + K ^ m) * (d / γ) ^ (m + 1) := mul_le_mul_of_nonneg_left h2 (by positivity)
        linarith
      have e4 : A * (2 + a ^ m + (a + d) ^ m) ≤ D * d ^ (m + 1) := by
        have h1 : 2 + a ^ m + (a + d) ^ m ≤ (2 + K ^ m + (K + γ) ^ m) * (d / γ) ^ (m + 1) := by
          rw [add_mul]; linarith
        refine (mul_le_mul_of_nonneg_left h1 hA).trans (le_of_eq ?_)
        rw [hD, div_pow]
        ring
      have h3 : 0 ≤ ε * (1 + a ^ (m + 1)) := by positivity
      have h4 : 0 ≤ B * d ^ (m + 1) := by positivity
      linarith
  · have ha1 : 1 ≤ a := by linarith
    have key : ∀ s : ℝ, 1 ≤ s → a ≤ s → d ≤ s → A * (2 + a ^ m + (a + d) ^ m) ≤ B * s ^ m := by
      intro s hs h1 h2
      have e1 : (a + d) ^ m ≤ 2 ^ m * s ^ m := by
        rw [← mul_pow]; exact pow_le_pow_left₀ (by positivity) (by linarith) m
      have e2 : a ^ m ≤ s ^ m := pow_le_pow_left₀ ha h1 m
      have e3 : 1 ≤ s ^ m := one_le_pow₀ hs
      rw [hB, mul_assoc]
      exact mul_le_mul_of_nonneg_left (by linarith) hA
    rcases le_or_gt d a with hda | hda
    · have h1 := key a ha1 le_rfl hda
      have h2 : B * a ^ m ≤ ε * a ^ (m + 1) := by
        have : B ≤ ε * a := by
          rw [hK] at hak
          have : B / ε ≤ a := by linarith
          rw [div_le_iff₀ hε] at this
          linarith
        rw [pow_succ]
        have h3 : 0 ≤ a ^ m := by positivity
        have := mul_le_mul_of_nonneg_right this h3
        linarith
      have h3 : 0 ≤ (B + D) * d ^ (m + 1) := by positivity
      linarith
    · have hd1 : 1 ≤ d := by linarith
      have h1 := key d hd1 hda.le le_rfl
      have h2 : B * d ^ m ≤ B * d ^ (m + 1) := mul_le_mul_of_nonneg_left (pow_le_pow_right₀ hd1 (by omega)) hB0
      have h3 : 0 ≤ ε * (1 + a ^ (m + 1)) := by positivity
      have h4 : 0 ≤ D * d ^ (m + 1) := by positivity
      linarith

theorem continuous_testF {q : ℝ} (hq : 0 < q) {n : ℕ} (hn : n ≤ 1) : Continuous (testF q n) := by
  interval_cases n
  · have : testF q 0 = fun x => |x| ^ q := by funext x; simp [testF]
    rw [this]
    exact continuous_abs.rpow_const fun _ => Or.inr hq.le
  · have : testF q 1 = fun x => |x| ^ q * Real.log (|x| ^ q) / q := by
      funext x
      by_cases h : x = 0
      · rw [h]; simp [testF, Real.zero_rpow hq.ne']
      · rw [testF, pow_one, Real.log_rpow (abs_pos.2 h)]
        field_simp
    rw [this]
    exact (Real.continuous_mul_log.comp (continuous_abs.rpow_const fun _ => Or.inr hq.le)).div_const _

theorem testF_growth {q : ℝ} (hq : 0 < q) {n : ℕ} (hn : n ≤ 1) {m : ℕ} (hm : q + 1 ≤ m) (t : ℝ) : |testF q n t| ≤ (1 + q⁻¹) * (1 + |t| ^ m) := by
  have hqi : 0 < q⁻¹ := inv_pos.2 hq
  have ha := abs_nonneg t
  have hpm : 0 ≤ |t| ^ m := by positivity
  rcases le_or_gt |t| 1 with h | h
  · have hu : |t| ^ q ≤ 1 := Real.rpow_le_one ha h hq.le
    have hu0 : 0 ≤ |t| ^ q := by positivity
    have hb : |testF q n t| ≤ 1 + q⁻¹ := by
      interval_cases n
      · rw [testF, pow_zero, mul_one, abs_of_nonneg hu0]; linarith
      · by_cases h0 : t = 0
        · rw [h0]; simp [testF, Real.zero_rpow hq.ne']; positivity
        · have hp : 0 < |t| ^ q := Real.rpow_pos_of_pos (abs_pos.2 h0) q
          have e : testF q 1 t = Real.log (|t| ^ q) * |t| ^ q * q⁻¹ := by
            rw [testF, pow_one, Real.log_rpow (abs_pos.2 h0)]; field_simp
          rw [e, abs_mul, abs_of_pos hqi]
          have := Real.abs_log_mul_self_lt _ hp hu
          have := mul_le_mul_of_nonneg_right this.le hqi.le
          linarith
    have : (1 + q⁻¹) * 1 ≤ (1 + q⁻¹) * (1 + |t| ^ m) := mul_le_mul_of_nonneg_left (by linarith) (by positivity)
    linarith
  · have hb : |testF q n t| ≤ |t| ^ m := by
      have e1 : |t| ^ (q + 1) ≤ |t| ^ m := by
        rw [← Real.rpow_natCast]
        exact Real.rpow_le_rpow_of_exponent_le h.le hm
      have hu0 : 0 ≤ |t| ^ q := by positivity
      have e2 : |t| ^ q * |t| = |t| ^ (q + 1) := by rw [Real.rpow_add (by linarith), Real.rpow_one]
      refine le_trans ?_ e1
      rw [← e2]
      interval_cases n
      · rw [testF, pow_zero, mul_one, abs_of_nonneg hu0]
        exact le_mul_of_one_le_right hu0 h.le
      · rw [testF, pow_one, abs_mul, abs_of_nonneg hu0, abs_of_nonneg (Real.log_nonneg h.le)]
        refine mul_le_mul_of_nonneg_left ?_ hu0
        have := Real.log_le_sub_one_of_pos (by linarith : 0 < |t|)
        linarith
    have : 1 * (1 + |t| ^ m) ≤ (1 + q⁻¹) * (1 + |t| ^ m) := mul_le_mul_of_nonneg_right (by linarith) (by positivity)
    linarith

theorem testF_diff {q : ℝ} (hq : 0 < q) {n : ℕ} (hn : n ≤ 1) {m : ℕ} (hm : q + 1 ≤ m) {ε : ℝ} (hε : 0 < ε) :
    ∃ C : ℝ, 0 ≤ C ∧ ∀ t t' : ℝ, |testF q n t' - testF q n t| ≤ ε * (1 + |t| ^ (m + 1)) + C * |t' - t| ^ (m + 1) :=
  growth_diff (continuous_testF hq hn) (by positivity) (testF_growth hq hn hm) hε

/-! ### The statistics of positive order of a typical scale, zeros allowed -/

/-- The means of the test functions in the list `F`, applied to the values divided by `σ`, are within `η` of their expectation. -/
def PosTypical (F : List (ℝ × ℕ)) (η σ : ℝ) (xs : List ℝ) : Prop := xs ≠ [] ∧
  ∀ p ∈ F, |(xs.map fun x => testF p.1 p.2 (x / σ)).sum / xs.length - normalMoment p.1 p.2| < η

/-- As `Asymptotic`, without the assumption that no value is zero. -/
def PosAsymptotic (F : List (ℝ × ℕ)) (Y : List Fl → Fl) (α ℓ : ℝ) : Prop :=
  ∀ ε > 0, ∃ η > 0, ∀ (σ : ℝ) (c : List Fl) (xs : List ℝ), 0 < σ → Entries c xs → PosTypical F η σ xs →
    ∃ t, Y c = Fl.fin t ∧ |t - (α * Real.logb 2 σ + ℓ)| < ε

theorem tmean_nonzero {q : ℝ} (hq : 0 < q) {s : ℝ × List ℝ} (h : 0 < tmean q 0 s) : ∃ x ∈ s.2, x ≠ 0 := by
  by_contra hno
  push Not at hno
  have e : s.2.map (fun x => testF q 0 (x / s.1)) = s.2.map fun _ => (0:ℝ) := by
    refine List.map_congr_left fun x hx => ?_
    rw [hno x hx]
    simp [testF, Real.zero_rpow hq.ne']
  unfold tmean at h
  rw [e] at h
  simp at h

theorem meanLog_pos {s : ℝ × List ℝ} (h0 : 0 < s.1) {q : ℝ} (hq : 0 < q) (hx : ∃ x ∈ s.2, x ≠ 0) :
    (s.2.map fun x => |x| ^ q / powSum s.2 q * Real.logb 2 |x|).sum = Real.logb 2 s.1 + tmean q 1 s / tmean q 0 s / Real.log 2 := by
  have hp := powSum_pos q hx
  have h1 : s.2 ≠ [] := by obtain ⟨x, hx, -⟩ := hx; exact List.ne_nil_of_mem hx
  have hl : (0:ℝ) < s.2.length := by exact_mod_cast List.length_pos_iff.2 h1
  have hq' : 0 < s.1 ^ q := by positivity
  have hlog : Real.log 2 ≠ 0 := (Real.log_pos (by norm_num)).ne'
  have e1 : s.2.map (fun x => |x| ^ q / powSum s.2 q * Real.logb 2 |x|) =
      s.2.map fun x => Real.logb 2 s.1 / powSum s.2 q * |x| ^ q + s.1 ^ q / powSum s.2 q / Real.log 2 * testF q 1 (x / s.1) := by
    apply List.map_congr_left
    intro x hx
    by_cases hx0 : x = 0
    · rw [hx0]; simp [testF, Real.zero_rpow hq.ne']
    have hx' : 0 < |x| := abs_pos.2 hx0
    simp only [testF, pow_one]
    rw [abs_div, abs_of_pos h0, Real.div_rpow (abs_nonneg _) h0.le, Real.log_div hx'.ne' h0.ne']
    unfold Real.logb
    field_simp
    ring
  have e2 := powSum_div h0 q
  have ht : tmean q 0 s = powSum s.2 q / s.2.length / s.1 ^ q := by rw [e2]; field_simp
  rw [e1, List.sum_map_add, List.sum_map_mul_left, List.sum_map_mul_left, ht]
  change Real.logb 2 s.1 / powSum s.2 q * powSum s.2 q + _ = _
  unfold tmean
  field_simp

theorem posAsymptotic_of {q : ℝ} (hq : 0 < q) {F : List (ℝ × ℕ)} (h0 : (q, 0) ∈ F) (h1 : (q, 1) ∈ F) {Y : List Fl → Fl} {α : ℝ} {φ : ℝ × ℝ → ℝ}
    (hY : ∀ (s : ℝ × List ℝ) (c : List Fl), Entries c s.2 → 0 < s.1 → 0 < tmean q 0 s → Y c = Fl.fin (α * Real.logb 2 s.1 + φ (tmean q 0 s, tmean q 1 s)))
    (hφ : ContinuousAt φ (normalMoment q 0, normalMoment q 1)) : PosAsymptotic F Y α (φ (normalMoment q 0, normalMoment q 1)) := by
  intro ε hε
  obtain ⟨δ, hδ, hd⟩ := Metric.continuousAt_iff.1 hφ ε hε
  have hm := normalMoment_pos (q := q) (by linarith)
  refine ⟨min δ (normalMoment q 0), lt_min hδ hm, fun σ c xs hσ hc ht => ?_⟩
  have t0 : |tmean q 0 (σ, xs) - normalMoment q 0| < min δ (normalMoment q 0) := by
    have := ht.2 (q, 0) h0
    unfold tmean
    exact this
  have t1 : |tmean q 1 (σ, xs) - normalMoment q 1| < min δ (normalMoment q 0) := by
    have := ht.2 (q, 1) h1
    unfold tmean
    exact this
  have hpos : 0 < tmean q 0 (σ, xs) := by
    have := (abs_lt.1 (t0.trans_le (min_le_right _ _))).1
    linarith
  have hdist : dist (tmean q 0 (σ, xs), tmean q 1 (σ, xs)) (normalMoment q 0, normalMoment q 1) < δ := by
    rw [Prod.dist_eq, Real.dist_eq, Real.dist_eq]
    exact max_lt (t0.trans_le (min_le_left _ _)) (t1.trans_le (min_le_left _ _))
  have h2 := hd hdist
  rw [Real.dist_eq] at h2
  refine ⟨α * Real.logb 2 σ + φ (tmean q 0 (σ, xs), tmean q 1 (σ, xs)), hY (σ, xs) c hc hσ hpos, ?_⟩
  rw [add_sub_add_left_eq_sub]
  exact h2

theorem posAsymptotic_structure {q : ℝ} (hq : 0 < q) {F : List (ℝ × ℕ)} (h0 : (q, 0) ∈ F) (h1 : (q, 1) ∈ F) :
    PosAsymptotic F (fun c => (nanmean ((c.map Fl.abs).map (fastPower (.real q)))).log2) q (Real.logb 2 (normalMoment q 0)) := by
  refine posAsymptotic_of hq h0 h1 (φ := fun p => Real.logb 2 p.1) (fun s c hc hs ht => ?_)
    (continuousAt_fst.logb (normalMoment_pos (by linarith)).ne')
  have hx := tmean_nonzero hq ht
  have hne : s.2 ≠ [] := by obtain ⟨x, hx, -⟩ := hx; exact List.ne_nil_of_mem hx
  have hl : (0:ℝ) < s.2.length := by exact_mod_cast List.length_pos_iff.2 hne
  have hp := powSum_pos q hx
  have e := sfMean_col hc (e := .real q) (Or.inl hq) hne
  change nanmean _ = Fl.fin (powSum s.2 q / s.2.length) at e
  show (nanmean ((c.map Fl.abs).map (fastPower (.real q)))).log2 = _
  rw [e, Fl.log2_fin (div_pos hp hl), powSum_div hs, Real.logb_mul (by positivity) ht.ne', Real.logb_rpow_eq_mul_logb_of_pos hs]

theorem posAsymptotic_V {q : ℝ} (hq : 0 < q) {F : List (ℝ × ℕ)} (h0 : (q, 0) ∈ F) (h1 : (q, 1) ∈ F) :
    PosAsymptotic F (fun c => msV c (.real q)) 1 (normalMoment q 1 / normalMoment q 0 / Real.log 2) := by
  refine posAsymptotic_of hq h0 h1 (φ := fun p => p.2 / p.1 / Real.log 2) (fun s c hc hs ht => ?_)
    ((continuousAt_snd.div continuousAt_fst (normalMoment_pos (by linarith)).ne').div_const _)
  rw [one_mul]
  exact (msV_eq hc (e := .real q) (Or.inl hq) (tmean_nonzero hq ht)).trans (congrArg Fl.fin (meanLog_pos hs hq (tmean_nonzero hq ht)))

theorem posAsymptotic_U {q : ℝ} (hq : 0 < q) {F : List (ℝ × ℕ)} (h0 : (q, 0) ∈ F) (h1 : (q, 1) ∈ F) :
    PosAsymptotic F (fun c => msU (countNotNaN c) c (.real q)) 0
      (q * (normalMoment q 1 / normalMoment q 0 / Real.log 2) - Real.logb 2 (normalMoment q 0)) := by
  have hm := (normalMoment_pos (q := q) (by linarith)).ne'
  refine posAsymptotic_of hq h0 h1 (φ := fun p => q * (p.2 / p.1 / Real.log 2) - Real.logb 2 p.1) (fun s c hc hs ht => ?_)
    ((((continuousAt_snd.div continuousAt_fst hm).div_const _).const_mul _).sub (continuousAt_fst.logb hm))
  have hx := tmean_nonzero hq ht
  have hne : s.2 ≠ [] := by obtain ⟨x, hx, -⟩ := hx; exact List.ne_nil_of_mem hx
  have hl : (0:ℝ) < s.2.length := by exact_mod_cast List.length_pos_iff.2 hne
  have hp := powSum_pos q hx
  have e1 := msU_eq_msV hc (e := .real q) (Or.inl hq) hx hne
  have e2 := msV_eq hc (e := .real q) (Or.inl hq) hx
  show msU (countNotNaN c) c (.real q) = _
  rw [hc.count, e1, e2]
  change Fl.fin q * Fl.fin (s.2.map fun x => |x| ^ q / powSum s.2 q * Real.logb 2 |x|).sum + Fl.fin (-1) * (Fl.fin (powSum s.2 q / s.2.length)).log2 = _
  rw [meanLog_pos hs hq hx, Fl.log2_fin (div_pos hp hl), Fl.fin_mul, Fl.fin_mul, Fl.fin_add,
    powSum_div hs, Real.logb_mul (by positivity) ht.ne', Real.logb_rpow_eq_mul_logb_of_pos hs]
  congr 1
  ring

end

end MFA
