import Verif.Props.Coherence
import Verif.Props.BiScaling
import Verif.Lemmas.PairMoments

/-! From empirical joint moments to the bivariate estimates. -/

namespace MFA

universe u

open Classical Finset MeasureTheory ProbabilityTheory

noncomputable section

/-- Empirical joint moment of the normalised pairs. -/
def pmean (p : (ℝ × ℕ) × (ℝ × ℕ)) (σ1 σ2 : ℝ) (zs : List (ℝ × ℝ)) : ℝ :=
  mean (zs.map fun z => testF p.1.1 p.1.2 (z.1 / σ1) * testF p.2.1 p.2.2 (z.2 / σ2))

theorem JointIs.logs {ls : List (Fl × Fl)} {zs : List (ℝ × ℝ)} (h : JointIs ls zs) (hn : ∀ z ∈ zs, z.1 ≠ 0 ∧ z.2 ≠ 0) :
    JointIs (logPairs ls) (zs.map fun z => (Real.log |z.1|, Real.log |z.2|)) := by
  unfold JointIs at h ⊢
  unfold logPairs
  have hb : ∀ x : Fl, x.abs.ln.isNaN = x.isNaN := by
    intro x
    rw [Bool.eq_iff_iff, Fl.isNaN_iff, Fl.isNaN_iff, abs_ln_nan]
  rw [List.filter_map]
  have hf : ((fun p : Fl × Fl => !p.1.isNaN && !p.2.isNaN) ∘ fun p : Fl × Fl => (p.1.abs.ln, p.2.abs.ln)) = fun p => !p.1.isNaN && !p.2.isNaN := by
    funext p
    simp only [Function.comp_apply, hb]
  rw [hf, h, List.map_map, List.map_map]
  apply List.map_congr_left
  intro z hz
  simp only [Function.comp_apply, Fl.abs_fin, Fl.ln_fin (abs_pos.2 (hn z hz).1), Fl.ln_fin (abs_pos.2 (hn z hz).2)]

theorem mean_pos {zs : List ℝ} (hz : zs ≠ []) (h : ∀ z ∈ zs, 0 < z) : 0 < mean zs := by
  unfold mean
  have : 0 < zs.length := List.length_pos_iff.2 hz
  exact div_pos (List.sum_pos _ h hz) (by exact_mod_cast this)

theorem mean_mul (c : ℝ) {ι : Type} (l : List ι) (f : ι → ℝ) : mean (l.map fun i => c * f i) = c * mean (l.map f) := by
  unfold mean
  rw [List.sum_map_mul_left, List.length_map, List.length_map, mul_div_assoc]

theorem bsLog_value {q : (ℤ × Arr 1) × (ℤ × Arr 1)} {zs : List (ℝ × ℝ)} (h : JointIs (biPairs q) zs) (hz : zs ≠ [])
    (hn : ∀ z ∈ zs, z.1 ≠ 0 ∧ z.2 ≠ 0) {σ1 σ2 : ℝ} (h1 : 0 < σ1) (h2 : 0 < σ2) (e1 e2 : ℝ) : 0 < pmean ((e1, 0), (e2, 0)) σ1 σ2 zs ∧
    bsLog e1 e2 q = Fl.fin (e1 * Real.logb 2 σ1 + e2 * Real.logb 2 σ2 + Real.logb 2 (pmean ((e1, 0), (e2, 0)) σ1 σ2 zs)) := by
  have hpos : 0 < pmean ((e1, 0), (e2, 0)) σ1 σ2 zs := by
    apply mean_pos (by simpa using hz)
    intro t ht
    obtain ⟨z, hz', rfl⟩ := List.mem_map.1 ht
    obtain ⟨a1, a2⟩ := hn z hz'
    have b1 := abs_pos.2 (div_ne_zero a1 h1.ne')
    have b2 := abs_pos.2 (div_ne_zero a2 h2.ne')
    simp only [testF, pow_zero, mul_one]
    positivity
  refine ⟨hpos, ?_⟩
  have hm : bsAbsMean (biPairs q) (.real e1) (.real e2) = Fl.fin (mean (zs.map fun z => |z.1| ^ e1 * |z.2| ^ e2)) := by
    unfold bsAbsMean
    apply h.nanmean hz
    · intro p hp
      have := prod_nan (.real e1) (.real e2) (p.1.abs, p.2.abs) (by
        rcases hp with hp | hp <;> simp [hp, Fl.abs])
      exact this
    · intro z hz'
      rw [fastPower_abs_fin (Or.inr (hn z hz').1), fastPower_abs_fin (Or.inr (hn z hz').2), Fl.fin_mul]
      rfl
  have he : mean (zs.map fun z => |z.1| ^ e1 * |z.2| ^ e2) = σ1 ^ e1 * σ2 ^ e2 * pmean ((e1, 0), (e2, 0)) σ1 σ2 zs := by
    unfold pmean
    rw [← mean_mul]
    congr 1
    apply List.map_congr_left
    intro z _
    simp only [testF, pow_zero, mul_one, abs_div, abs_of_pos h1, abs_of_pos h2]
    rw [Real.div_rpow (abs_nonneg _) h1.le, Real.div_rpow (abs_nonneg _) h2.le]
    have c1 : σ1 ^ e1 ≠ 0 := (Real.rpow_pos_of_pos h1 _).ne'
    have c2 : σ2 ^ e2 ≠ 0 := (Real.rpow_pos_of_pos h2 _).ne'
    field_simp
  have c1 := Real.rpow_pos_of_pos h1 e1
  have c2 := Real.rpow_pos_of_pos h2 e2
  unfold bsLog
  rw [hm, he, Fl.log2_fin (by positivity), Real.logb_mul (by positivity) hpos.ne', Real.logb_mul c1.ne' c2.ne',
    Real.logb_rpow_eq_mul_logb_of_pos h1, Real.logb_rpow_eq_mul_logb_of_pos h2]

theorem bc11_value {q : (ℤ × Arr 1) × (ℤ × Arr 1)} {zs : List (ℝ × ℝ)} (h : JointIs (biPairs q) zs) (hz : zs ≠ [])
    (hn : ∀ z ∈ zs, z.1 ≠ 0 ∧ z.2 ≠ 0) {σ1 σ2 : ℝ} (h1 : 0 < σ1) (h2 : 0 < σ2) {n : ℕ} (h1n : 1 ≤ n) :
    bcAt n 1 1 q = Fl.fin (pmean ((0, 1), (0, 1)) σ1 σ2 zs - pmean ((0, 1), (0, 0)) σ1 σ2 zs * pmean ((0, 0), (0, 1)) σ1 σ2 zs) := by
  have hz' : (zs.map fun z => (Real.log |z.1|, Real.log |z.2|)) ≠ [] := by simpa using hz
  unfold bcAt
  rw [(h.logs hn).one_one hz' h1n]
  have e : (zs.map fun z => (Real.log |z.1|, Real.log |z.2|)) =
      (zs.map fun z => (Real.log |z.1 / σ1|, Real.log |z.2 / σ2|)).map fun z => (z.1 + Real.log σ1, z.2 + Real.log σ2) := by
    rw [List.map_map]
    apply List.map_congr_left
    intro z hzm
    obtain ⟨a1, a2⟩ := hn z hzm
    simp only [Function.comp_apply, abs_div, abs_of_pos h1, abs_of_pos h2]
    rw [Real.log_div (abs_pos.2 a1).ne' h1.ne', Real.log_div (abs_pos.2 a2).ne' h2.ne', sub_add_cancel, sub_add_cancel]
  rw [e, cov_shift, cov_eq (by simpa using hz)]
  unfold pmean
  simp only [List.map_map]
  congr 2
  · congr 1
    apply List.map_congr_left
    intro z _
    simp [testF]
  · congr 2
    · apply List.map_congr_left
      intro z _
      simp [testF]
    · apply List.map_congr_left
      intro z _
      simp [testF]

/-- The slope of a curve over the common scales of two quantities, when the curve is close to a line. -/
theorem biSlope_near {m1 m2 : MRQ 1} {J : ℕ} (hp : Paired m1 m2 J) {j1 j2 : ℕ} (hj1 : 1 ≤ j1) (hj12 : j1 < j2) (hJ : j2 ≤ J) (weighted : Bool)
    (f : (ℤ × Arr 1) × (ℤ × Arr 1) → Fl) {c d ε' K β : ℝ} (hβ : 0 < β) (hK : 0 ≤ K)
    (hw : ∀ q ∈ biList m1 m2, 0 < wtOf weighted q.1 0)
    (hf : ∀ q ∈ biList m1 m2, ∀ j : ℕ, q.1.1 = j → j1 ≤ j → j ≤ j2 → ∃ t, f q = Fl.fin t ∧ |t - (c + d * j)| ≤ ε' + K * (2:ℝ) ^ (-(2 * β * j))) :
    ∃ z, biSlope m1 m2 j1 j2 weighted f = Fl.fin z ∧
      |z - d| ≤ (j2 - j1 + 1) * ε' + K / (1 - (2:ℝ) ^ (-(2 * β))) * (2:ℝ) ^ (-(2 * β * j1)) := by
  have ha1 : (1:ℤ) ≤ (j1 : ℤ) := by exact_mod_cast hj1
  have ha2 : (j1 : ℤ) ≤ (j2 : ℤ) := by exact_mod_cast hj12.le
  have ha3 : (j2 : ℤ) ≤ (J : ℤ) := by exact_mod_cast hJ
  have hkeys := hp.reg1.sub_keys ha1 ha2 ha3
  rw [hp.sub_fst, List.map_map] at hkeys
  have hkey : ∀ q ∈ biSub m1 m2 j1 j2, ∃ j : ℕ, q.1.1 = j ∧ j1 ≤ j ∧ j ≤ j2 := by
    intro q hq
    have : q.1.1 ∈ arange (j1 : ℤ) ((j2 : ℤ) + 1) := by rw [← hkeys]; exact List.mem_map.2 ⟨q, hq, rfl⟩
    unfold arange at this
    obtain ⟨i, hi, he⟩ := List.mem_map.1 this
    rw [List.mem_range] at hi
    exact ⟨j1 + i, by rw [← he]; push_cast; ring, by omega, by omega⟩
  have htwo := hp.reg1.sub_two ha1 ha2 ha3 (by exact_mod_cast hj12)
  rw [hp.sub_fst] at htwo
  obtain ⟨z, hz, hzb⟩ := slopeL_near (biSub m1 m2 j1 j2) (fun q => q.1.1) (fun q => wtOf weighted q.1 0)
    (fun q hq => hw q (biSub_mem hq))
    (by
      obtain ⟨p, hp, p', hp', hne⟩ := htwo
      obtain ⟨a, ha, rfl⟩ := List.mem_map.1 hp
      obtain ⟨b, hb, rfl⟩ := List.mem_map.1 hp'
      exact ⟨a, ha, b, hb, fun h => hne (by rw [h])⟩)
    f c d (fun q => ε' + K * (2:ℝ) ^ (-(2 * β * q.1.1)))
    (fun q hq => by
      obtain ⟨j, hj, h1, h2⟩ := hkey q hq
      obtain ⟨t, ht, htb⟩ := hf q (biSub_mem hq) j hj h1 h2
      refine ⟨t, ht, ?_⟩
      rw [hj]
      push_cast
      exact htb)
  refine ⟨z, hz, hzb.trans ?_⟩
  have e : ((biSub m1 m2 j1 j2).map fun q => ε' + K * (2:ℝ) ^ (-(2 * β * (q.1.1 : ℝ)))) =
      (arange (j1 : ℤ) ((j2 : ℤ) + 1)).map fun j : ℤ => ε' + K * (2:ℝ) ^ (-(2 * β * j)) := by
    rw [← hkeys, List.map_map]; rfl
  rw [e]
  exact arange_sum_le hj12 hβ hK

variable {wt : Wavelet}

/-- The pairs of coefficients at one scale of two transformed signals. -/
theorem pair_entries {N : ℕ} {x y : Fin 1 → ℤ → ℝ} (hwt : wt.Valid) {p : PExp} {j1 : ℤ} {j2 : Option ℝ} {g nm : ℝ}
    {weighted : Bool} {w1 w2 : WT 1} (h1 : waveletAnalysis (sampled N x) p wt j1 j2 g nm weighted = .ok w1)
    (h2 : waveletAnalysis (sampled N y) p wt j1 j2 g nm weighted = .ok w2) {q : (ℤ × Arr 1) × (ℤ × Arr 1)}
    (hq : q ∈ biList w1.wt_coefs w2.wt_coefs) : ∃ j : ℕ, q.1.1 = j ∧ 1 ≤ j ∧ j ≤ w1.wt_coefs.values.length ∧ ∃ zs : List (ℝ × ℝ), JointIs (biPairs q) zs ∧
      (∀ F : ℝ × ℝ → ℝ, (zs.map F).sum = ∑ k ∈ interior N wt.dec_hi.length j, F (w1.wt_coefs.number j k 0, w2.wt_coefs.number j k 0)) ∧
      zs.length = (interior N wt.dec_hi.length j).card ∧
      ∀ z ∈ zs, ∃ k ∈ interior N wt.dec_hi.length j, z = (w1.wt_coefs.number j k 0, w2.wt_coefs.number j k 0) := by
  have hlen : w2.wt_coefs.values.length = w1.wt_coefs.values.length := by
    have := (C07_data_independent one_ne_zero one_ne_zero hwt hwt rfl h2 h1).2.2.1
    have h2 := congrArg List.length this
    simpa [Dict.keys] using h2
  obtain ⟨i, hi, he⟩ := List.getElem_of_mem hq
  have hil : i < w1.wt_coefs.values.length := by
    unfold biList at hi; rw [List.length_zip] at hi; omega
  obtain ⟨hreg, -, -⟩ := analysis_entries hwt h1
  obtain ⟨a, ha, -, hca⟩ := col_coefs hwt h1 (j := i + 1) (by omega) (by omega) 0
  obtain ⟨b, hb, -, hcb⟩ := col_coefs hwt h2 (j := i + 1) (by omega) (by omega) 0
  rw [Nat.add_sub_cancel] at ha hb
  have hbl : (biList w1.wt_coefs w2.wt_coefs)[i]? = some (a, b) := List.getElem?_zip_eq_some.2 ⟨ha, hb⟩
  rw [List.getElem?_eq_getElem hi, he] at hbl
  obtain rfl := Option.some.inj hbl
  have haj : a.1 = ((i + 1 : ℕ) : ℤ) := by
    have h3 : (w1.wt_coefs.values.map Prod.fst)[i]? = some a.1 := by rw [List.getElem?_map, ha]; rfl
    rw [hreg.1] at h3
    simp only [List.getElem?_map, List.getElem?_range hil, Option.map_some] at h3
    have := Option.some.inj h3
    push_cast
    omega
  refine ⟨i + 1, haj, by omega, by omega, ?_⟩
  have hfin : ∀ (c : List Fl) (f : ℕ → ℝ), c = ((List.range (N / 2 ^ (i + 1))).map fun k => if Bord N wt.dec_hi.length (i + 1) k then Fl.nan else Fl.fin (f k)) →
      ∀ x ∈ c, x = Fl.nan ∨ ∃ t : ℝ, x = Fl.fin t := by
    intro c f hc x hx
    rw [hc] at hx
    obtain ⟨k, -, rfl⟩ := List.mem_map.1 hx
    split
    · exact Or.inl rfl
    · exact Or.inr ⟨_, rfl⟩
  have hJ : JointIs (biPairs (a, b)) (jointVals (col a.2 0) (col b.2 0)) := jointVals_is (hfin _ _ hca) (hfin _ _ hcb)
  rw [hca, hcb, filterMap_ite] at hJ
  have hint : interior N wt.dec_hi.length (i + 1) = ((List.range (N / 2 ^ (i + 1))).filter fun k => ¬ Bord N wt.dec_hi.length (i + 1) k).toFinset := by
    rw [interior_eq _ _ _ hwt.pos]
    ext k; simp
  refine ⟨_, hJ, ?_, ?_, ?_⟩
  · intro G
    rw [List.map_map, hint, List.sum_toFinset _ (List.nodup_range.filter _)]; rfl
  · rw [hint, List.length_map, List.toFinset_card_of_nodup (List.nodup_range.filter _)]
  · intro z hz
    obtain ⟨k, hk, rfl⟩ := List.mem_map.1 hz
    exact ⟨k, by rw [hint]; exact List.mem_toFinset.2 hk, rfl⟩

/-- The coefficients of a mixture are the mixtures of the coefficients of the columns. -/
theorem mixture_number {Ω : Type u} [MeasurableSpace Ω] {R N : ℕ} (hwt : wt.Valid) {x : Ω → List (Fin R → ℝ)} (hl : ∀ ω, (x ω).length = N) (α : Fin R → ℝ)
    {p p' : PExp} {j1 j1' : ℤ} {j2 j2' : Option ℝ} {g nm : ℝ} {wd wd' : Bool} {w : Ω → WT R} {W : Ω → WT 1}
    (hw : ∀ ω, waveletAnalysis (asFloats (x ω)) p wt j1 j2 g nm wd = .ok (w ω))
    (hW : ∀ ω, waveletAnalysis (asFloats (mixture α (x ω))) p' wt j1' j2' g nm wd' = .ok (W ω)) {ω₀ : Ω} {j k : ℕ}
    (hr : ∀ r, (w ω₀).wt_coefs.Reported j k r) (hr' : (W ω₀).wt_coefs.Reported j k 0) (hR : R ≠ 0) (ω : Ω) :
    (W ω).wt_coefs.number j k 0 = ∑ r, α r * (w ω).wt_coefs.number j k r := by
  have r0 : Fin R := ⟨0, by omega⟩
  have hl' : ∀ ω, (mixture α (x ω)).length = N := fun ω => by rw [mixture_length, hl]
  obtain ⟨-, -, e1, -⟩ := random_linear (x := fun ω => mixture α (x ω)) hwt hl' hW hr'
  obtain ⟨-, -, e2, -⟩ := random_linear hwt hl hw (hr r0)
  rw [e1 ω 0]
  simp only [e2 ω]
  rw [mul_sum]
  simp only [mul_sum]
  rw [sum_comm]
  refine sum_congr rfl fun t _ => ?_
  have e : sample (fun ω => mixture α (x ω)) t 0 ω = ∑ r, α r * sample x t r ω := mixture_getD α (x ω) t 0
  rw [e, mul_sum, mul_sum]
  exact sum_congr rfl fun r _ => by ring

end

end MFA
