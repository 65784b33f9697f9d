import Verif.Props.LargeNumbers
import Verif.Lemmas.RegBound
import Verif.Lemmas.Spectrum
import Verif.Lemmas.Closed
import Verif.Lemmas.Cumulants

/-!
# Statistics of a typical scale

When the normalised moments of the values of one scale are close to those of a normal variable, the statistics that the estimators
regress are close to an affine function of the logarithm of the standard deviation.
-/

namespace MFA

open Classical Filter Topology

noncomputable section

theorem Entries.unique {c : List Fl} {xs ys : List ℝ} (h1 : Entries c xs) (h2 : Entries c ys) : xs = ys := by
  have h : xs.map Fl.fin = ys.map Fl.fin := Eq.trans (Eq.symm h1) h2
  exact List.map_injective_iff.2 (fun a b h => (Fl.fin_inj _ _).1 h) h

/-- The empirical mean of a test function. -/
def tmean (q : ℝ) (n : ℕ) (s : ℝ × List ℝ) : ℝ := (s.2.map fun x => testF q n (x / s.1)).sum / s.2.length

/-- "The scale gets more and more typical", as a filter on pairs (standard deviation, values). -/
def typicalFilter (F : List (ℝ × ℕ)) : Filter (ℝ × List ℝ) :=
  ⨅ η ∈ Set.Ioi (0 : ℝ), 𝓟 {s : ℝ × List ℝ | 0 < s.1 ∧ TypicalScale F η s.1 s.2}

theorem typical_mono {F : List (ℝ × ℕ)} {η η' σ : ℝ} {xs : List ℝ} (h : η ≤ η') (ht : TypicalScale F η σ xs) :
    TypicalScale F η' σ xs :=
  ⟨ht.1, ht.2.1, fun p hp => (ht.2.2 p hp).trans_le h⟩

theorem typical_basis (F : List (ℝ × ℕ)) :
    (typicalFilter F).HasBasis (fun η : ℝ => 0 < η) (fun η => {s | 0 < s.1 ∧ TypicalScale F η s.1 s.2}) := by
  refine hasBasis_biInf_principal ?_ ⟨1, by simp⟩
  intro a ha b hb
  refine ⟨min a b, Set.mem_Ioi.2 (lt_min (Set.mem_Ioi.1 ha) (Set.mem_Ioi.1 hb)), ?_, ?_⟩
  · intro s hs; exact ⟨hs.1, typical_mono (min_le_left _ _) hs.2⟩
  · intro s hs; exact ⟨hs.1, typical_mono (min_le_right _ _) hs.2⟩

theorem typical_good (F : List (ℝ × ℕ)) : ∀ᶠ s in typicalFilter F, 0 < s.1 ∧ s.2 ≠ [] ∧ ∀ x ∈ s.2, x ≠ 0 := by
  refine (typical_basis F).eventually_iff.2 ⟨1, one_pos, ?_⟩
  intro s hs
  exact ⟨hs.1, hs.2.1, hs.2.2.1⟩

theorem tendsto_tmean {F : List (ℝ × ℕ)} {q : ℝ} {n : ℕ} (h : (q, n) ∈ F) :
    Tendsto (tmean q n) (typicalFilter F) (𝓝 (normalMoment q n)) := by
  refine ((typical_basis F).tendsto_iff Metric.nhds_basis_ball).2 fun ε hε => ⟨ε, hε, ?_⟩
  intro s hs
  have h3 := hs.2.2.2 (q, n) h
  rw [Metric.mem_ball, Real.dist_eq]
  unfold tmean
  exact h3

/-! ### Identities -/

theorem powSum_div {s : ℝ × List ℝ} (h0 : 0 < s.1) (q : ℝ) :
    powSum s.2 q / s.2.length = s.1 ^ q * tmean q 0 s := by
  unfold powSum tmean
  rw [mul_div_assoc', ← List.sum_map_mul_left]
  congr 3
  funext x
  simp only [testF, pow_zero, mul_one]
  rw [abs_div, abs_of_pos h0, Real.div_rpow (abs_nonneg _) h0.le]
  have := (Real.rpow_pos_of_pos h0 q).ne'
  field_simp

theorem tmean_pos {s : ℝ × List ℝ} (h0 : 0 < s.1) (h1 : s.2 ≠ []) (h2 : ∀ x ∈ s.2, x ≠ 0) (q : ℝ) : 0 < tmean q 0 s := by
  obtain ⟨x, hx⟩ := List.exists_mem_of_ne_nil _ h1
  have hp := powSum_pos q ⟨x, hx, h2 x hx⟩
  have hl : (0:ℝ) < s.2.length := by exact_mod_cast List.length_pos_iff.2 h1
  have := powSum_div h0 q
  have h3 : 0 < s.1 ^ q * tmean q 0 s := by rw [← this]; positivity
  exact (mul_pos_iff_of_pos_left (by positivity)).1 h3

theorem logb_powSum {s : ℝ × List ℝ} (h0 : 0 < s.1) (h1 : s.2 ≠ []) (h2 : ∀ x ∈ s.2, x ≠ 0) (q : ℝ) :
    Real.logb 2 (powSum s.2 q / s.2.length) = q * Real.logb 2 s.1 + Real.logb 2 (tmean q 0 s) := by
  rw [powSum_div h0, Real.logb_mul (by positivity) (tmean_pos h0 h1 h2 q).ne', Real.logb_rpow_eq_mul_logb_of_pos h0]

theorem meanLog_eq {s : ℝ × List ℝ} (h0 : 0 < s.1) (h1 : s.2 ≠ []) (h2 : ∀ x ∈ s.2, x ≠ 0) (q : ℝ) :
    (s.2.map fun x => |x| ^ q / powSum s.2 q * Real.logb 2 |x|).sum = Real.logb 2 s.1 + tmean q 1 s / tmean q 0 s / Real.log 2 := by
  obtain ⟨x, hx⟩ := List.exists_mem_of_ne_nil _ h1
  have hp := powSum_pos q ⟨x, hx, h2 x hx⟩
  have hl : (0:ℝ) < s.2.length := by exact_mod_cast List.length_pos_iff.2 h1
  have hq : 0 < s.1 ^ q := by positivity
  have hlog : Real.log 2 ≠ 0 := (Real.log_pos (by norm_num)).ne'
  have e1 : s.2.map (fun x => |x| ^ q / powSum s.2 q * Real.logb 2 |x|) =
      s.2.map fun x => Real.logb 2 s.1 / powSum s.2 q * |x| ^ q + s.1 ^ q / powSum s.2 q / Real.log 2 * testF q 1 (x / s.1) := by
    apply List.map_congr_left
    intro x hx
    have hx' : 0 < |x| := abs_pos.2 (h2 x hx)
    simp only [testF, pow_one]
    rw [abs_div, abs_of_pos h0, Real.div_rpow (abs_nonneg _) h0.le, Real.log_div hx'.ne' h0.ne']
    unfold Real.logb
    field_simp
    ring
  rw [e1, List.sum_map_add, List.sum_map_mul_left, List.sum_map_mul_left]
  change Real.logb 2 s.1 / powSum s.2 q * powSum s.2 q + _ = _
  rw [div_mul_cancel₀ _ hp.ne']
  congr 1
  have h3 := powSum_div h0 q
  have ht := tmean_pos h0 h1 h2 q
  have h4 : powSum s.2 q = s.1 ^ q * tmean q 0 s * s.2.length := by
    rw [← h3]; field_simp
  rw [h4]
  show _ * (s.2.map fun x => testF q 1 (x / s.1)).sum = (s.2.map fun x => testF q 1 (x / s.1)).sum / s.2.length / _ / _
  field_simp

theorem mom_logs (s : ℝ × List ℝ) (k : ℕ) : mom (s.2.map fun x => Real.log |x / s.1|) k = tmean 0 k s := by
  unfold mom tmean
  rw [List.map_map, List.length_map]
  congr 3
  funext x
  simp [testF]

/-- The cumulants of the logarithm of a normal variable, from its moments by the usual recursion. -/
def logCumulant : ℕ → ℝ
  | 0 => 0
  | k + 1 => normalMoment 0 (k + 1) - ∑ i : Fin k, (k.choose i : ℝ) * logCumulant (i + 1) * normalMoment 0 (k - i)
decreasing_by omega

theorem tendsto_kap {F : List (ℝ × ℕ)} {n : ℕ} (h : ∀ k, k ≤ n → (0, k) ∈ F) :
    ∀ k, k < n → Tendsto (fun s : ℝ × List ℝ => kap (s.2.map fun x => Real.log |x / s.1|) (k + 1)) (typicalFilter F) (𝓝 (logCumulant (k + 1))) := by
  intro k
  induction k using Nat.strong_induction_on with
  | _ k ih =>
    intro hk
    have e : (fun s : ℝ × List ℝ => kap (s.2.map fun x => Real.log |x / s.1|) (k + 1)) =ᶠ[typicalFilter F] fun s =>
        tmean 0 (k + 1) s - ∑ i : Fin k, (k.choose i : ℝ) * kap (s.2.map fun x => Real.log |x / s.1|) (i + 1) * tmean 0 (k - i) s := by
      filter_upwards [typical_good F] with s hs
      rw [kap_rec _ (by simpa using hs.2.1), mom_logs, Finset.sum_range]
      congr 1
      exact Finset.sum_congr rfl fun i _ => by rw [mom_logs]
    refine Tendsto.congr' e.symm ?_
    rw [logCumulant]
    refine (tendsto_tmean (h _ (by omega))).sub (tendsto_finsetSum _ fun i _ => ?_)
    exact (tendsto_const_nhds.mul (ih i i.2 (by omega))).mul (tendsto_tmean (h _ (by omega)))

/-! ### The statistics of the estimators -/

/-- The statistic `Y` of a column of values is about `α log2 σ + ℓ` for typical columns of standard deviation `σ`. -/
def Asymptotic (F : List (ℝ × ℕ)) (Y : List Fl → Fl) (α ℓ : ℝ) : Prop :=
  ∀ ε > 0, ∃ η > 0, ∀ (σ : ℝ) (c : List Fl) (xs : List ℝ), 0 < σ → Entries c xs → TypicalScale F η σ xs →
    ∃ t, Y c = Fl.fin t ∧ |t - (α * Real.logb 2 σ + ℓ)| < ε

theorem asymptotic_of {F : List (ℝ × ℕ)} {Y : List Fl → Fl} {α ℓ : ℝ} (T G : ℝ × List ℝ → ℝ)
    (hY : ∀ (s : ℝ × List ℝ) (c : List Fl), Entries c s.2 → 0 < s.1 → s.2 ≠ [] → (∀ x ∈ s.2, x ≠ 0) → Y c = Fl.fin (T s) ∧ T s = α * Real.logb 2 s.1 + G s)
    (hG : Tendsto G (typicalFilter F) (𝓝 ℓ)) : Asymptotic F Y α ℓ := by
  intro ε hε
  obtain ⟨η, hη, h⟩ := ((typical_basis F).tendsto_iff Metric.nhds_basis_ball).1 hG ε hε
  refine ⟨η, hη, fun σ c xs hσ hc ht => ?_⟩
  have hg := h (σ, xs) ⟨hσ, ht⟩
  obtain ⟨y1, y2⟩ := hY (σ, xs) c hc hσ ht.1 ht.2.1
  refine ⟨_, y1, ?_⟩
  rw [y2]
  rw [Metric.mem_ball, Real.dist_eq] at hg
  rw [show α * Real.logb 2 (σ, xs).1 + G (σ, xs) - (α * Real.logb 2 σ + ℓ) = G (σ, xs) - ℓ by ring]
  exact hg

theorem exists_nonzero {xs : List ℝ} (h1 : xs ≠ []) (h2 : ∀ x ∈ xs, x ≠ 0) : ∃ x ∈ xs, x ≠ 0 := by
  obtain ⟨x, hx⟩ := List.exists_mem_of_ne_nil _ h1
  exact ⟨x, hx, h2 x hx⟩

/-- The statistic `Y` of a column of nonzero values `xs` is `α log2 σ + G (σ, xs)` for every `σ > 0`. -/
def Statistic (Y : List Fl → Fl) (α : ℝ) (G : ℝ × List ℝ → ℝ) : Prop :=
  ∀ (s : ℝ × List ℝ) (c : List Fl), Entries c s.2 → 0 < s.1 → s.2 ≠ [] → (∀ x ∈ s.2, x ≠ 0) →
    Y c = Fl.fin (α * Real.logb 2 s.1 + G s)

theorem Statistic.asymptotic {F : List (ℝ × ℕ)} {Y : List Fl → Fl} {α ℓ : ℝ} {G : ℝ × List ℝ → ℝ} (h : Statistic Y α G)
    (hG : Tendsto G (typicalFilter F) (𝓝 ℓ)) : Asymptotic F Y α ℓ :=
  asymptotic_of (fun s => α * Real.logb 2 s.1 + G s) G (fun s c hc h0 h1 h2 => ⟨h s c hc h0 h1 h2, rfl⟩) hG

/-- The logarithm of the structure function. -/
theorem stat_structure (e : Expo) :
    Statistic (fun c => (nanmean ((c.map Fl.abs).map (fastPower e))).log2) e.val (fun s => Real.logb 2 (tmean e.val 0 s)) := by
  intro s c hc h0 h1 h2
  have hl : (0:ℝ) < s.2.length := by exact_mod_cast List.length_pos_iff.2 h1
  show (nanmean ((c.map Fl.abs).map (fastPower e))).log2 = _
  rw [← logb_powSum h0 h1 h2 _, sfMean_col hc (Or.inr h2) h1, Fl.log2_fin (div_pos (powSum_pos _ (exists_nonzero h1 h2)) hl)]

theorem asymptotic_structure {F : List (ℝ × ℕ)} {e : Expo} (he : (e.val, 0) ∈ F) (hq : -1 < e.val) :
    Asymptotic F (fun c => (nanmean ((c.map Fl.abs).map (fastPower e))).log2) e.val (Real.logb 2 (normalMoment e.val 0)) :=
  (stat_structure e).asymptotic ((tendsto_tmean he).logb (normalMoment_pos hq).ne')

/-- The statistic regressed for `h(q)`. -/
theorem stat_V (e : Expo) : Statistic (fun c => msV c e) 1 (fun s => tmean e.val 1 s / tmean e.val 0 s / Real.log 2) := by
  intro s c hc h0 h1 h2
  rw [one_mul, ← meanLog_eq h0 h1 h2 _]
  exact msV_eq hc (Or.inr h2) (exists_nonzero h1 h2)

theorem asymptotic_V {F : List (ℝ × ℕ)} {e : Expo} (he : (e.val, 0) ∈ F) (he1 : (e.val, 1) ∈ F) (hq : -1 < e.val) :
    Asymptotic F (fun c => msV c e) 1 (normalMoment e.val 1 / normalMoment e.val 0 / Real.log 2) :=
  (stat_V e).asymptotic (((tendsto_tmean he1).div (tendsto_tmean he) (normalMoment_pos hq).ne').div_const _)

/-- The statistic regressed for `D(q)`. -/
theorem stat_U (e : Expo) : Statistic (fun c => msU (countNotNaN c) c e) 0
    (fun s => e.val * (tmean e.val 1 s / tmean e.val 0 s / Real.log 2) - Real.logb 2 (tmean e.val 0 s)) := by
  intro s c hc h0 h1 h2
  have hl : (0:ℝ) < s.2.length := by exact_mod_cast List.length_pos_iff.2 h1
  have hcount : countNotNaN c = s.2.length := Entries.count hc
  show msU (countNotNaN c) c e = _
  rw [hcount, msU_eq_msV hc (Or.inr h2) (exists_nonzero h1 h2) h1, msV_eq hc (Or.inr h2) (exists_nonzero h1 h2),
    meanLog_eq h0 h1 h2, Fl.log2_fin (div_pos (powSum_pos _ (exists_nonzero h1 h2)) hl), Fl.fin_mul, Fl.fin_mul, Fl.fin_add,
    logb_powSum h0 h1 h2]
  congr 1
  ring

theorem asymptotic_U {F : List (ℝ × ℕ)} {e : Expo} (he : (e.val, 0) ∈ F) (he1 : (e.val, 1) ∈ F) (hq : -1 < e.val) :
    Asymptotic F (fun c => msU (countNotNaN c) c e) 0
      (e.val * (normalMoment e.val 1 / normalMoment e.val 0 / Real.log 2) - Real.logb 2 (normalMoment e.val 0)) :=
  (stat_U e).asymptotic ((((tendsto_tmean he1).div (tendsto_tmean he) (normalMoment_pos hq).ne').div_const _).const_mul _ |>.sub
      ((tendsto_tmean he).logb (normalMoment_pos hq).ne'))

/-- The log-cumulants. -/
theorem stat_cumulant {n i : ℕ} (hi : i < n) :
    Statistic (fun c => (cmColumn (c.map fun x => x.abs.ln) n).getD i Fl.nan) (if i = 0 then Real.log 2 else 0)
      (fun s => kap (s.2.map fun x => Real.log |x / s.1|) (i + 1)) := by
  intro s c hc h0 h1 h2
  have e1 : (cmColumn (c.map fun x => x.abs.ln) n).getD i Fl.nan = Fl.fin (kap (s.2.map fun x => Real.log |x|) (i + 1)) := by
    refine cmColumn_getD ?_ (by simpa using h1) hi
    have h3 : dropNaN c = s.2.map Fl.fin := hc
    rw [dropNaN_map_of (by rfl), h3, List.map_map, List.map_map]
    · apply List.map_congr_left
      intro x hx
      simp only [Function.comp_apply, Fl.abs_fin]
      exact Fl.ln_fin (abs_pos.2 (h2 x hx))
    · intro x hx hxn
      obtain ⟨r, hr, rfl⟩ := Entries.mem hc hx hxn
      rw [Fl.abs_fin, Fl.ln_fin (abs_pos.2 (h2 r hr))]; simp
  have e : s.2.map (fun x => Real.log |x|) = (s.2.map fun x => Real.log |x / s.1|).map (· + Real.log s.1) := by
    rw [List.map_map]
    apply List.map_congr_left
    intro x hx
    simp only [Function.comp_apply]
    rw [abs_div, abs_of_pos h0, Real.log_div (abs_pos.2 (h2 x hx)).ne' h0.ne']; ring
  show (cmColumn (c.map fun x => x.abs.ln) n).getD i Fl.nan = _
  rw [e1, e, kap_shift (by simpa using h1)]
  have hlog : Real.log 2 ≠ 0 := (Real.log_pos (by norm_num)).ne'
  congr 1
  split
  · unfold Real.logb; field_simp; ring
  · ring

theorem asymptotic_cumulant {F : List (ℝ × ℕ)} {n i : ℕ} (hF : ∀ k, k ≤ n → (0, k) ∈ F) (hi : i < n) :
    Asymptotic F (fun c => (cmColumn (c.map fun x => x.abs.ln) n).getD i Fl.nan) (if i = 0 then Real.log 2 else 0) (logCumulant (i + 1)) :=
  (stat_cumulant hi).asymptotic (tendsto_kap hF i hi)

end

end MFA
