import Verif.Lemmas.SubsetMean
import Verif.Props.HurstEstimation
import Verif.Props.Missing

/-! From typical scales to estimates, for any multiresolution quantity; the values reported for recordings with gaps. -/

namespace MFA

universe u

open Classical Finset MeasureTheory ProbabilityTheory

noncomputable section

theorem slopes_typical {R L : ℕ} {m : MRQ R} (hreg : Regular m L) {F : List (ℝ × ℕ)} {Y : (List Fl → Fl) × ℝ × ℝ} {η ε' c a B V β : ℝ} {τ : ℕ → ℝ}
    (hB : 0 ≤ B) (h0 : 0 < β) (hc : 0 < c) {j1 j2 : ℕ} (hj1 : 1 ≤ j1) (hj12 : j1 < j2) (hJ : j2 ≤ L) {r : Fin R}
    (hτ : ∀ j, 1 ≤ j → j ≤ j2 → 0 < τ j ∧ |Real.logb 2 (τ j) - (Real.logb 2 V + j * a)| ≤ B * (2:ℝ) ^ (-(2 * β * j)))
    (hY : ∀ (σ : ℝ) (c : List Fl) (xs : List ℝ), 0 < σ → Entries c xs → TypicalScale F η σ xs →
      ∃ t, Y.1 c = Fl.fin t ∧ |t - (Y.2.1 * Real.logb 2 σ + Y.2.2)| < ε')
    (htyp : ∀ p ∈ m.values, p.1 ≤ j2 → ∃ xs, Entries (col p.2 r) xs ∧ TypicalScale F η √(c * τ p.1.toNat) xs) (weighted : Bool) :
    ∃ z, slopeL (subR m j1 j2) (fun p => (p.1 : ℝ)) (fun p => wtOf weighted p r) (fun p => Y.1 (col p.2 r)) = Fl.fin z ∧
      |z - Y.2.1 * (a / 2)| ≤ |Y.2.1| * (B / 2 / (1 - (2:ℝ) ^ (-(2 * β)))) * (2:ℝ) ^ (-(2 * β * j1)) + (j2 - j1 + 1) * ε' := by
  have hρ1 : (2:ℝ) ^ (-(2 * β)) < 1 := Real.rpow_lt_one_of_one_lt_of_neg (by norm_num) (by linarith)
  have hρ : 0 < 1 - (2:ℝ) ^ (-(2 * β)) := by linarith
  have ha1 : (1:ℤ) ≤ (j1 : ℤ) := by exact_mod_cast hj1
  have ha2 : (j1 : ℤ) ≤ (j2 : ℤ) := by exact_mod_cast hj12.le
  have ha3 : (j2 : ℤ) ≤ (L : ℤ) := by exact_mod_cast hJ
  have hkeys := hreg.sub_keys ha1 ha2 ha3
  have hkey : ∀ p ∈ subR m j1 j2, ∃ j : ℕ, p.1 = j ∧ j1 ≤ j ∧ j ≤ j2 := by
    intro p hp
    have : p.1 ∈ arange (j1 : ℤ) ((j2 : ℤ) + 1) := by rw [← hkeys]; exact List.mem_map.2 ⟨p, hp, rfl⟩
    unfold arange at this
    obtain ⟨i, hi, he⟩ := List.mem_map.1 this
    rw [List.mem_range] at hi
    exact ⟨j1 + i, by rw [← he]; push_cast; ring, by omega, by omega⟩
  have htwo := hreg.sub_two ha1 ha2 ha3 (by exact_mod_cast hj12)
  obtain ⟨z, hz, hzb⟩ := slopeL_near (subR m j1 j2) (fun p => p.1) (fun p => wtOf weighted p r)
    (fun p hp => by
      obtain ⟨j, hj, hj1', hj2'⟩ := hkey p hp
      obtain ⟨xs, hxs, ht⟩ := htyp p (sub_mem hp) (by rw [hj]; exact_mod_cast hj2')
      unfold wtOf
      split
      · rw [hxs.count]
        exact_mod_cast List.length_pos_iff.2 ht.1
      · exact one_pos)
    (by
      obtain ⟨p, hp, p', hp', hne⟩ := htwo
      exact ⟨p, hp, p', hp', fun h => hne (by rw [h])⟩)
    (fun p => Y.1 (col p.2 r))
    (Y.2.1 * ((Real.logb 2 c + Real.logb 2 V) / 2) + Y.2.2) (Y.2.1 * (a / 2))
    (fun p => ε' + |Y.2.1| * B / 2 * (2:ℝ) ^ (-(2 * β * p.1)))
    (fun p hp => by
      obtain ⟨j, hj, hj1', hj2'⟩ := hkey p hp
      obtain ⟨xs, hxs, ht⟩ := htyp p (sub_mem hp) (by rw [hj]; exact_mod_cast hj2')
      obtain ⟨t1, t2⟩ := hτ j (hj1.trans hj1') hj2'
      rw [hj, Int.toNat_natCast] at ht
      obtain ⟨t, ht1, ht2⟩ := hY _ _ xs (Real.sqrt_pos.2 (mul_pos hc t1)) hxs ht
      refine ⟨t, ht1, ?_⟩
      rw [hj]
      have hs : Real.logb 2 √(c * τ j) = (Real.logb 2 c + Real.logb 2 (τ j)) / 2 := by
        rw [Real.sqrt_eq_rpow, Real.logb_rpow_eq_mul_logb_of_pos (mul_pos hc t1), Real.logb_mul hc.ne' t1.ne']; ring
      rw [hs] at ht2
      have e : t - (Y.2.1 * ((Real.logb 2 c + Real.logb 2 V) / 2) + Y.2.2 + Y.2.1 * (a / 2) * ((j : ℤ) : ℝ)) =
          (t - (Y.2.1 * ((Real.logb 2 c + Real.logb 2 (τ j)) / 2) + Y.2.2)) +
          Y.2.1 / 2 * (Real.logb 2 (τ j) - (Real.logb 2 V + j * a)) := by
        push_cast; ring
      rw [e]
      refine (abs_add_le _ _).trans (add_le_add ht2.le ?_)
      rw [abs_mul, abs_div, abs_of_pos (by norm_num : (0:ℝ) < 2)]
      refine (mul_le_mul_of_nonneg_left t2 (by positivity)).trans (le_of_eq ?_)
      push_cast; ring)
  refine ⟨z, hz, hzb.trans ?_⟩
  have hsum : ((subR m j1 j2).map fun p => ε' + |Y.2.1| * B / 2 * (2:ℝ) ^ (-(2 * β * p.1))) =
      (arange (j1 : ℤ) ((j2 : ℤ) + 1)).map fun j : ℤ => ε' + |Y.2.1| * B / 2 * (2:ℝ) ^ (-(2 * β * j)) := by
    rw [← hkeys, List.map_map]; rfl
  rw [hsum]
  refine (arange_sum_le hj12 h0 (by positivity)).trans (le_of_eq ?_)
  field_simp
  ring

/-- A single precision for all the statistics. -/
theorem common_precision {F : List (ℝ × ℕ)} (Ys : List ((List Fl → Fl) × ℝ × ℝ)) (hYs : ∀ Y ∈ Ys, Asymptotic F Y.1 Y.2.1 Y.2.2) {ε' : ℝ} (hε' : 0 < ε') :
    ∃ η : ℝ, 0 < η ∧ ∀ Y ∈ Ys, ∀ (σ : ℝ) (c : List Fl) (xs : List ℝ), 0 < σ → Entries c xs → TypicalScale F η σ xs →
      ∃ t, Y.1 c = Fl.fin t ∧ |t - (Y.2.1 * Real.logb 2 σ + Y.2.2)| < ε' := by
  induction Ys with
  | nil => exact ⟨1, one_pos, fun _ h => by cases h⟩
  | cons Y Ys ih =>
    obtain ⟨η1, hη1, h1⟩ := ih fun Y' hY' => hYs Y' (List.mem_cons_of_mem _ hY')
    obtain ⟨η2, hη2, h2⟩ := hYs Y (by simp) ε' hε'
    refine ⟨min η1 η2, lt_min hη1 hη2, fun Y' hY' σ c xs hσ hc ht => ?_⟩
    rcases List.mem_cons.1 hY' with h | h
    · subst h
      exact h2 σ c xs hσ hc (typical_mono (min_le_right _ _) ht)
    · exact h1 Y' h σ c xs hσ hc (typical_mono (min_le_left _ _) ht)

/-- The estimates, from the slopes. -/
theorem estimates_of_slopes {R : ℕ} {m : MRQ R} {q : List ℝ} {n : ℕ} {j1 j2 : ℕ} {weighted : Bool} {r : Fin R} {a B β ε : ℝ} (hε : 0 < ε)
    (key : ∀ Y ∈ statList q n, ∃ z, slopeL (subR m j1 j2) (fun p => (p.1 : ℝ)) (fun p => wtOf weighted p r) (fun p => Y.1 (col p.2 r)) = Fl.fin z ∧
      |z - Y.2.1 * a| ≤ |Y.2.1| * B * (2:ℝ) ^ (-(2 * β * j1)) + ε * Real.log 2) :
    (∀ e ∈ q, Near (zetaF m j1 j2 weighted (.real e) r) (e * a) (|e| * B * (2:ℝ) ^ (-(2 * β * j1)) + ε)) ∧
    (∀ e ∈ q, Near (vF m j1 j2 weighted (.real e) r) a (B * (2:ℝ) ^ (-(2 * β * j1)) + ε)) ∧
    (∀ e ∈ q, Near (Fl.fin 1 + uF m j1 j2 weighted (.real e) r) 1 ε) ∧
    (0 < n → Near (cumF m j1 j2 weighted n 0 r * Fl.fin log2e) a (B * (2:ℝ) ^ (-(2 * β * j1)) + ε)) ∧
    ∀ i, 1 ≤ i → i < n → Near (cumF m j1 j2 weighted n i r * Fl.fin log2e) 0 ε := by
  have hlog : 0 < Real.log 2 := Real.log_pos (by norm_num)
  have hlog1 : Real.log 2 ≤ 1 := by have := Real.log_le_sub_one_of_pos (show (0:ℝ) < 2 by norm_num); linarith
  have hsmall : ε * Real.log 2 ≤ ε := by nlinarith
  have kc : ∀ i, i < n → ∃ z, cumF m j1 j2 weighted n i r = Fl.fin z ∧
      |z - (if i = 0 then Real.log 2 else 0) * (a)| ≤ |if i = 0 then Real.log 2 else 0| * B * (2:ℝ) ^ (-(2 * β * j1)) + ε * Real.log 2 := by
    intro i hi
    exact key ((fun c => (cmColumn (c.map fun x => x.abs.ln) n).getD i Fl.nan), (if i = 0 then Real.log 2 else 0), logCumulant (i + 1))
      (by
        simp only [statList, List.mem_append, List.mem_map]
        exact Or.inr ⟨i, List.mem_range.2 hi, rfl⟩)
  refine ⟨fun e he => ?_, fun e he => ?_, fun e he => ?_, fun hn => ?_, fun i hi1 hi => ?_⟩
  · obtain ⟨z, hz, hb⟩ := key ((fun c => (nanmean ((c.map Fl.abs).map (fastPower (.real e)))).log2), e, Real.logb 2 (normalMoment e 0))
      (by simp only [statList, List.mem_append, List.mem_map]; exact Or.inl (Or.inl (Or.inl ⟨e, he, rfl⟩)))
    rw [zetaF_cols]
    exact ⟨z, hz, hb.trans (by simpa using hsmall)⟩
  · obtain ⟨z, hz, hb⟩ := key ((fun c => msV c (.real e)), 1, normalMoment e 1 / normalMoment e 0 / Real.log 2)
      (by simp only [statList, List.mem_append, List.mem_map]; exact Or.inl (Or.inl (Or.inr ⟨e, he, rfl⟩)))
    refine ⟨z, hz, ?_⟩
    rw [one_mul, abs_one, one_mul] at hb
    linarith
  · obtain ⟨z, hz, hb⟩ := key ((fun c => msU (countNotNaN c) c (.real e)), 0,
        e * (normalMoment e 1 / normalMoment e 0 / Real.log 2) - Real.logb 2 (normalMoment e 0))
      (by simp only [statList, List.mem_append, List.mem_map]; exact Or.inl (Or.inr ⟨e, he, rfl⟩))
    have hz' : uF m j1 j2 weighted (.real e) r = Fl.fin z := hz
    refine ⟨1 + z, by rw [hz', Fl.fin_add], ?_⟩
    simp only [zero_mul, abs_zero, sub_zero, zero_add] at hb
    rw [show 1 + z - 1 = z by ring]
    linarith
  · obtain ⟨z, hz, hb⟩ := kc 0 hn
    refine ⟨z * log2e, by rw [hz, Fl.fin_mul], ?_⟩
    rw [if_pos rfl, abs_of_pos hlog] at hb
    rw [log2e_eq, show z * (Real.log 2)⁻¹ - a = (z - Real.log 2 * (a)) * (Real.log 2)⁻¹ by
      field_simp, abs_mul, abs_of_pos (inv_pos.2 hlog)]
    refine (mul_le_mul_of_nonneg_right hb (inv_pos.2 hlog).le).trans (le_of_eq ?_)
    field_simp
  · obtain ⟨z, hz, hb⟩ := kc i hi
    refine ⟨z * log2e, by rw [hz, Fl.fin_mul], ?_⟩
    rw [if_neg (by omega)] at hb
    simp only [zero_mul, abs_zero, sub_zero, zero_add] at hb
    rw [log2e_eq, sub_zero, abs_mul, abs_of_pos (inv_pos.2 hlog)]
    refine (mul_le_mul_of_nonneg_right hb (inv_pos.2 hlog).le).trans (le_of_eq ?_)
    field_simp

/-- `mf_analysis_full` without leaders, from the estimates. -/
theorem monofractal_of_estimates {R L : ℕ} {sig : Arr R} {p : PExp} {wt : Wavelet} {w : WT R} {j1 j2 n : ℕ} {weighted : Bool} {q : List ℝ} (h2 : (2:ℝ) ∈ q)
    {d : MFData R} (hd : mfAnalysisFull sig j1 (some (j2 : ℝ)) 1 0 weighted wt p (some (.ndarray q)) n = .ok d)
    (hw : waveletAnalysis sig p wt j1 (some (j2 : ℝ)) 0 1 weighted = .ok w) (hj2 : w.j2_eff = j2)
    (hreg : Regular w.wt_coefs L) (hg : w.wt_coefs.gamint = 0) (hj1 : 1 ≤ j1) (hj12 : j1 < j2) (hL : j2 ≤ L) {r : Fin R} {h' Bb ε : ℝ}
    (hbq : ∀ e ∈ q, |e| * Bb ≤ ε / 2) (hbias1 : Bb ≤ ε / 2) (hε : 0 < ε)
    (hest : (∀ e ∈ q, Near (zetaF w.wt_coefs j1 j2 weighted (.real e) r) (e * h') (|e| * Bb + ε / 2)) ∧
      (∀ e ∈ q, Near (vF w.wt_coefs j1 j2 weighted (.real e) r) h' (Bb + ε / 2)) ∧
      (∀ e ∈ q, Near (Fl.fin 1 + uF w.wt_coefs j1 j2 weighted (.real e) r) 1 (ε / 2)) ∧
      (0 < n → Near (cumF w.wt_coefs j1 j2 weighted n 0 r * Fl.fin log2e) h' (Bb + ε / 2)) ∧
      ∀ i, 1 ≤ i → i < n → Near (cumF w.wt_coefs j1 j2 weighted n i r * Fl.fin log2e) 0 (ε / 2)) : MonofractalNear d.dwt q n h' ε r := by
  obtain ⟨hz, hv, hu, hc1, hcp⟩ := hest
  unfold mfAnalysisFull at hd
  rw [hw] at hd
  simp only at hd
  rw [C47_bundle, hj2] at hd
  obtain ⟨⟨b1, b2, b3, -⟩, -⟩ := hd
  change StructFn.make _ (.ndarray q) _ _ _ = _ at b1
  change Spectrum.make _ _ _ _ (.ndarray q) = _ at b3
  have a1 : (1:ℤ) ≤ (j1 : ℤ) := by exact_mod_cast hj1
  have a2 : (j1 : ℤ) ≤ (j2 : ℤ) := by exact_mod_cast hj12.le
  have a3 : (j2 : ℤ) ≤ (L : ℤ) := by exact_mod_cast hL
  rw [hreg.structFn a1 a2 a3 weighted q h2] at b1
  rw [hreg.cumulants a1 a2 a3 weighted n] at b2
  rw [hreg.spectrum a1 a2 a3 weighted (.ndarray q) (by rw [expos_ndarray]; simp; rintro rfl; cases h2)] at b3
  obtain ⟨m, hm'⟩ : ∃ m, m = w.wt_coefs := ⟨_, rfl⟩
  rw [← hm'] at hz hv hu hc1 hcp b1 b2 b3 hg
  unfold MonofractalNear
  rw [← Except.ok.inj b1, ← Except.ok.inj b2, ← Except.ok.inj b3]
  refine ⟨?_, ?_, ?_, ?_⟩
  · obtain ⟨t, ht, htb⟩ := hz 2 h2
    refine ⟨t / 2 - 0, ?_, ?_⟩
    · show zetaF _ _ _ _ _ _ / Fl.fin 2 - Fl.fin m.gamint = _
      rw [ht, hg, Fl.fin_div two_ne_zero, Fl.fin_sub]
    · rw [show t / 2 - 0 - h' = (t - 2 * h') / 2 by ring, abs_div, abs_two, div_le_iff₀ (by norm_num)]
      have := hbq 2 h2
      linarith
  · intro i e he
    have hm := List.mem_of_getElem? he
    refine ⟨zetaF m j1 j2 weighted (.real e), by simp only [List.getElem?_map, he, Option.map_some], ?_⟩
    exact (hz e hm).mono (by have := hbq e hm; linarith)
  · intro i hi
    refine ⟨fun r => cumF m j1 j2 weighted n i r * Fl.fin log2e,
      by simp only [List.getElem?_map, List.getElem?_range hi, Option.map_some], ?_⟩
    split
    · rename_i h; subst h
      exact (hc1 hi).mono (by linarith)
    · exact (hcp i (by omega) hi).mono (by linarith)
  · intro i hi
    have hqi : q[i]? = some q[i] := List.getElem?_eq_getElem hi
    refine ⟨vF m j1 j2 weighted (.real q[i]), fun r => Fl.fin 1 + uF m j1 j2 weighted (.real q[i]) r,
      by simp only [expos_ndarray, List.getElem?_map, hqi, Option.map_some],
      by simp only [expos_ndarray, List.getElem?_map, hqi, Option.map_some], ?_, ?_⟩
    · exact (hv q[i] (List.getElem_mem hi)).mono (by linarith)
    · exact (hu q[i] (List.getElem_mem hi)).mono (by linarith)

end

end MFA
