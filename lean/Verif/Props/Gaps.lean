import Verif.Lemmas.FromTypical
import Verif.Props.Robust

/-!
# Property C132: the estimates on recordings with missing samples
-/

namespace MFA

universe u

open Classical Finset MeasureTheory ProbabilityTheory

noncomputable section

variable {wt : Wavelet}

theorem withGaps_gappy {R N : ℕ} {x : List (Fin R → ℝ)} (h : x.length = N) (missing : Fin R → Finset ℕ) :
    withGaps x missing = gappy N (fun r t => (x.getD t.toNat fun _ => 0) r) fun r => (missing r).map Nat.castEmbedding := by
  subst h
  rw [withGaps, gappy]
  apply List.ext_getElem
  · simp
  · intro i h1 h2
    have hi : i < x.length := by simpa using h1
    simp only [List.getElem_map, List.getElem_range, List.getElem_mapIdx]
    funext r
    have e1 : ((i : ℤ) ∈ (missing r).map Nat.castEmbedding) ↔ i ∈ missing r := by
      rw [mem_map]
      constructor
      · rintro ⟨a, ha, he⟩
        have : a = i := Nat.cast_injective (R := ℤ) he
        rwa [← this]
      · exact fun h => ⟨i, h, rfl⟩
    by_cases hm : i ∈ missing r
    · rw [if_pos hm, if_pos (e1.2 hm)]
    · rw [if_neg hm, if_neg (fun h => hm (e1.1 h)), Int.toNat_natCast, List.getD_eq_getElem?_getD, List.getElem?_eq_getElem hi, Option.getD_some]

/-- The values reported at each scale for a recording with gaps. -/
theorem gappy_entries {g nm : ℝ} {R N : ℕ} {y : Fin R → ℤ → ℝ} {missing : Fin R → Finset ℤ} {w : WT R} {q : PExp} {j1 : ℤ} {j2 : Option ℝ} {weighted : Bool}
    (hwt : wt.Valid) (h0 : waveletAnalysis (gappy N y missing) q wt j1 j2 g nm weighted = .ok w) :
    Regular w.wt_coefs w.wt_coefs.values.length ∧ w.wt_coefs.gamint = g ∧
    ∀ p ∈ w.wt_coefs.values, ∃ j : ℕ, p.1 = j ∧ 1 ≤ j ∧ j ≤ w.wt_coefs.values.length ∧ ∀ r, ∃ xs : List ℝ, Entries (col p.2 r) xs ∧
      (∀ f : ℝ → ℝ, (xs.map f).sum = ∑ k ∈ intact N wt.dec_hi.length j (missing r),
        f ((2:ℝ) ^ ((j : ℝ) * (1 / 2 - 1 / nm + g)) * idealDetail wt (y r) j k)) ∧
      xs.length = (intact N wt.dec_hi.length j (missing r)).card ∧
      ∀ z ∈ xs, ∃ k ∈ intact N wt.dec_hi.length j (missing r), z = (2:ℝ) ^ ((j : ℝ) * (1 / 2 - 1 / nm + g)) * idealDetail wt (y r) j k := by
  obtain ⟨ml, K, Kc, h1, hK, hKc, hKc', h3, hc, hgood, hj2, hl⟩ := wa_inv h0
  rw [gappy_length] at h1
  have hlen : w.wt_coefs.values.length = Kc := by rw [hc]; simp [scalesUpTo]
  refine ⟨by rw [hlen, hc]; exact scalesUpTo_regular _ _ _ _, by rw [hc]; rfl, ?_⟩
  intro p hp
  have hp' := hp
  rw [hc] at hp'
  obtain ⟨j, hj1, hj2', rfl⟩ := scalesUpTo_mem hp'
  refine ⟨j, rfl, hj1, by rw [hlen]; exact hj2', fun r => ?_⟩
  let L := (List.range (N / 2 ^ j)).filter fun k => k ∈ intact N wt.dec_hi.length j (missing r)
  have hint : intact N wt.dec_hi.length j (missing r) = L.toFinset := by
    ext k
    simp only [L, List.mem_toFinset, List.mem_filter, List.mem_range, decide_eq_true_eq]
    exact ⟨fun h => ⟨interior_sub (mem_filter.1 h).1, h⟩, fun h => h.2⟩
  have hnd : L.Nodup := List.nodup_range.filter _
  have hlj : (coefSeq (wparams wt g nm) (gappy N y missing) j).length = N / 2 ^ j := by rw [coefSeq_length _ _ _ hj1, gappy_length]
  have hcol : col (coefSeq (wparams wt g nm) (gappy N y missing) j) r = (List.range (N / 2 ^ j)).map fun k =>
      if k ∈ intact N wt.dec_hi.length j (missing r) then Fl.fin ((2:ℝ) ^ ((j : ℝ) * (1 / 2 - 1 / nm + g)) * idealDetail wt (y r) j k) else Fl.nan := by
    rw [col_range, hlj]
    apply List.map_congr_left
    intro k hk
    rw [List.mem_range] at hk
    have hv : w.wt_coefs.val? j k r = some (ent (coefSeq (wparams wt g nm) (gappy N y missing) j) k r) := by
      rw [hc, scalesUpTo_val, hlj, if_pos ⟨hj1, hj2', hk⟩]
    obtain ⟨m1, m2⟩ := C125_missing hwt h0 hv
    by_cases hin : k ∈ intact N wt.dec_hi.length j (missing r)
    · rw [if_pos hin]
      refine m2 fun hnan => ?_
      obtain ⟨i1, i2⟩ := mem_filter.1 hin
      rcases m1.1 hnan with h | ⟨t, ht, hu⟩
      · exact h i1
      · exact i2 t ht hu
    · rw [if_neg hin, m1]
      by_contra hno
      push Not at hno
      exact hin (mem_filter.2 ⟨hno.1, hno.2⟩)
  refine ⟨L.map fun (k : ℕ) => (2:ℝ) ^ ((j : ℝ) * (1 / 2 - 1 / nm + g)) * idealDetail wt (y r) j k, ?_, ?_, ?_, ?_⟩
  · show dropNaN (col (coefSeq (wparams wt g nm) (gappy N y missing) j) r) = _
    rw [hcol, List.map_map]
    unfold dropNaN
    rw [List.filter_map]
    have : ((List.range (N / 2 ^ j)).filter ((fun x : Fl => !x.isNaN) ∘ fun k =>
        if k ∈ intact N wt.dec_hi.length j (missing r) then Fl.fin ((2:ℝ) ^ ((j : ℝ) * (1 / 2 - 1 / nm + g)) * idealDetail wt (y r) j k) else Fl.nan)) = L := by
      apply List.filter_congr
      intro k _
      by_cases hb : k ∈ intact N wt.dec_hi.length j (missing r) <;> simp [hb, Fl.isNaN]
    rw [this]
    apply List.map_congr_left
    intro k hk
    have hb : k ∈ intact N wt.dec_hi.length j (missing r) := by simpa using (List.mem_filter.1 hk).2
    simp [hb]
  · intro f
    rw [List.map_map, hint, List.sum_toFinset _ hnd]; rfl
  · rw [List.length_map, hint, List.toFinset_card_of_nodup hnd]
  · intro z hz
    obtain ⟨k, hk, rfl⟩ := List.mem_map.1 hz
    exact ⟨k, by rw [hint]; exact List.mem_toFinset.2 hk, rfl⟩

/-- With at least three intact positions at each scale up to `j2`, the scale `j2` is available and `j2` is not lowered. -/
theorem gappy_long {R N : ℕ} {y : Fin R → ℤ → ℝ} {missing : Fin R → Finset ℤ} {w : WT R} {j1 : ℤ} {j2 : ℕ} {g nm : ℝ} {weighted : Bool} (hwt : wt.Valid)
    (hN : N ≠ 0) (hj2 : 1 ≤ j2) (hJ : 2 ^ j2 * (wt.dec_hi.length + 1) ≤ N)
    (h3 : ∀ (r : Fin R) (s : ℕ), 1 ≤ s → s ≤ j2 → 3 ≤ (intact N wt.dec_hi.length s (missing r)).card)
    (hw : waveletAnalysis (gappy N y missing) .none wt j1 (some (j2 : ℝ)) g nm weighted = .ok w) :
    w.j2_eff = j2 ∧ j2 ≤ w.wt_coefs.values.length := by
  obtain ⟨ml, K, h1, h2, -, h4⟩ := wa_none_inv hw
  rw [gappy_length] at h1
  have hml : j2 ≤ ml.toNat := by
    have := ((maxLevel_iff hN ml).1 h1).2
    by_contra hc
    have hle : ml + 1 ≤ (j2 : ℤ) := by omega
    have h5 : (2:ℝ) ^ (ml + 1) ≤ (2:ℝ) ^ (j2 : ℤ) := zpow_le_zpow_right₀ (by norm_num) hle
    have h6 : ((2 ^ j2 * (wt.dec_hi.length + 1) : ℕ) : ℝ) ≤ N := by exact_mod_cast hJ
    push_cast at h6
    rw [zpow_natCast] at h5
    have h7 := mul_le_mul_of_nonneg_right h5 (by positivity : (0:ℝ) ≤ (wt.dec_hi.length : ℝ) + 1)
    linarith
  have hKJ : j2 ≤ K := by
    by_contra hc
    have := h2.2.2 (by omega)
    rw [not_not, tooFew_iff] at this
    obtain ⟨r, hr⟩ := this
    rw [count_gappy y missing hwt g nm r (by omega) fun i hi => level_room h1 (by omega)] at hr
    have := h3 r (1 + K) (by omega) (by omega)
    omega
  have hfl : (j2 : ℤ) ≤ finalLevel ml K := by
    have := finalLevel_toNat ml K
    omega
  have hfr : (j2 : ℝ) ≤ (finalLevel ml K : ℝ) := by exact_mod_cast hfl
  rw [h4]
  refine ⟨?_, by simpa [scalesUpTo] using hKJ⟩
  show j2Eff (finalLevel ml K) (some (j2 : ℝ)) = j2
  unfold j2Eff
  simp only
  rw [min_eq_right hfr]
  simp [pyInt]

theorem testList_gt' {q : List ℝ} {n : ℕ} (hq : ∀ e ∈ q, -(1 / 4) < e) : ∀ p ∈ testList q n, -(1 / 4) < p.1 := by
  intro p hp
  simp only [testList, List.mem_append, List.mem_map] at hp
  rcases hp with (⟨e, he, rfl⟩ | ⟨e, he, rfl⟩) | ⟨k, -, rfl⟩
  · exact hq e he
  · exact hq e he
  · norm_num

/-- Few positions are lost when few samples are missing. -/
theorem lost_le {N F j : ℕ} (hF : 1 ≤ F) (hj : 1 ≤ j) {J : ℕ} (hjJ : j ≤ J) (hN : 2 ^ j * (4 * F + 1) ≤ N) (missing : Finset ℤ) {θ : ℝ} (hθ : 0 < θ)
    (hm : (missing.card : ℝ) ≤ θ / (F * 2 ^ (J + 1)) * N) :
    ((interior N F j \ intact N F j missing).card : ℝ) ≤ θ * (interior N F j).card := by
  have hsub : intact N F j missing ⊆ interior N F j := filter_subset _ _
  have h1 := C125_isolated (N := N) (j := j) hF missing
  have h2 := card_sdiff_add_card_eq_card hsub
  have h3 : (interior N F j \ intact N F j missing).card ≤ missing.card * max (F - 1) 1 := by omega
  have h4 : missing.card * max (F - 1) 1 ≤ missing.card * F := Nat.mul_le_mul_left _ (max_le (by omega) hF)
  have h5 : ((interior N F j \ intact N F j missing).card : ℝ) ≤ missing.card * F := by exact_mod_cast h3.trans h4
  have hlen := length_le_interior (F := F) hj hN
  have h6 : (N : ℝ) ≤ (2:ℝ) ^ (J + 1) * (interior N F j).card := by
    have : (N : ℝ) ≤ (2:ℝ) ^ (j + 1) * (interior N F j).card := by exact_mod_cast hlen
    exact this.trans (mul_le_mul_of_nonneg_right (pow_le_pow_right₀ (by norm_num) (by omega)) (by positivity))
  have hF0 : (0:ℝ) < F := by exact_mod_cast hF
  calc ((interior N F j \ intact N F j missing).card : ℝ) ≤ missing.card * F := h5
    _ ≤ θ / (F * 2 ^ (J + 1)) * N * F := mul_le_mul_of_nonneg_right hm hF0.le
    _ ≤ θ / (F * 2 ^ (J + 1)) * ((2:ℝ) ^ (J + 1) * (interior N F j).card) * F := by gcongr
    _ = θ * (interior N F j).card := by field_simp

/-- `mf_analysis_full` on a long Gaussian signal with stationary increments and a small fraction of missing samples. -/
theorem estimates_gaps {M : ℕ} (hM : VanishingMoments wt.dec_hi M) (hM1 : 1 ≤ M) (hwt : wt.Valid) {G : ℤ → ℝ}
    {h' β : ℝ} (hK : ScalingKernel wt G h' β) (q : List ℝ) (n : ℕ) (h2 : (2:ℝ) ∈ q) (hq : ∀ e ∈ q, -(1 / 4) < e)
    (ε δ : ℝ) (hε : 0 < ε) (hδ : 0 < δ) : ∃ j₀ : ℕ, 1 ≤ j₀ ∧ ∀ j1 j2 : ℕ, j₀ ≤ j1 → j1 < j2 → ∃ N₀ : ℕ, ∃ ρ : ℝ, 0 < ρ ∧
    ∀ {Ω : Type u} [MeasurableSpace Ω] {μ : Measure Ω} {R N : ℕ} {x : Ω → List (Fin R → ℝ)} {A : ℕ → ℝ} {c : ℝ}, 0 < c → N₀ ≤ N →
      GaussianArray μ N x (fun n m => A n + A m - c * G ((n : ℤ) - m)) →
      ∀ (weighted : Bool) (r : Fin R) (missing : Ω → Fin R → Finset ℕ), (∀ ω r', ((missing ω r').card : ℝ) ≤ ρ * N) →
      μ {ω | ¬ ∃ d, mfAnalysisFull (withGaps (x ω) (missing ω)) j1 (some j2) 1 0 weighted wt .none (some (.ndarray q)) n = .ok d ∧
        MonofractalNear d.dwt q n h' ε r} ≤ ENNReal.ofReal δ := by
  obtain ⟨τ, V, B0, hV, hB0, hl⟩ := joint_llnG.{u} hM hM1 hwt hK 0 1
  have hρ1 : (2:ℝ) ^ (-(2 * β)) < 1 := Real.rpow_lt_one_of_one_lt_of_neg (by norm_num) (by have := hK.pos; linarith)
  obtain ⟨B, hBd⟩ : ∃ B, B = B0 / 2 / (1 - (2:ℝ) ^ (-(2 * β))) := ⟨_, rfl⟩
  have hB : 0 ≤ B := by
    rw [hBd]
    have : 0 < 1 - (2:ℝ) ^ (-(2 * β)) := by linarith
    positivity
  have h0 := hK.pos
  have hb : coefExponent h' 0 1 / 2 = h' := by rw [coefExponent_default]; ring
  -- the exponents are bounded
  obtain ⟨Q, hQ1, hQ⟩ : ∃ Q : ℝ, 1 ≤ Q ∧ ∀ e ∈ q, |e| ≤ Q := by
    clear h2 hq
    induction q with
    | nil => exact ⟨1, le_rfl, by simp⟩
    | cons a q ih =>
      obtain ⟨Q, h1, h2⟩ := ih
      refine ⟨max Q |a|, le_max_of_le_left h1, ?_⟩
      intro e he
      rcases List.mem_cons.1 he with rfl | he
      · exact le_max_right _ _
      · exact (h2 e he).trans (le_max_left _ _)
  obtain ⟨j₀, hj₀1, hj₀⟩ : ∃ j₀ : ℕ, 1 ≤ j₀ ∧ ∀ j1 : ℕ, j₀ ≤ j1 → Q * B * (2:ℝ) ^ (-(2 * β * j1)) ≤ ε / 2 := by
    have hρ0 : (0:ℝ) ≤ (2:ℝ) ^ (-(2 * β)) := by positivity
    have hρ1 : (2:ℝ) ^ (-(2 * β)) < 1 := Real.rpow_lt_one_of_one_lt_of_neg (by norm_num) (by linarith)
    have ht : Filter.Tendsto (fun j : ℕ => Q * B * ((2:ℝ) ^ (-(2 * β))) ^ j) Filter.atTop (nhds (Q * B * 0)) :=
      (tendsto_pow_atTop_nhds_zero_of_lt_one hρ0 hρ1).const_mul _
    rw [mul_zero] at ht
    obtain ⟨j₀, hj₀⟩ := Filter.eventually_atTop.1 (ht.eventually_le_const (by positivity : (0:ℝ) < ε / 2))
    refine ⟨j₀ + 1, by omega, fun j1 hj1 => ?_⟩
    have := hj₀ j1 (by omega)
    rwa [← Real.rpow_natCast, ← Real.rpow_mul (by norm_num), show -(2 * β) * (j1 : ℝ) = -(2 * β * j1) by ring] at this
  refine ⟨j₀, hj₀1, ?_⟩
  intro j1 j2 hj01 hj12
  have hj1 : 1 ≤ j1 := hj₀1.trans hj01
  have hlog : 0 < Real.log 2 := Real.log_pos (by norm_num)
  have hnum : (0:ℝ) < (j2:ℝ) - j1 + 1 := by
    have : (j1 : ℝ) < j2 := by exact_mod_cast hj12
    linarith
  obtain ⟨ε', hε'd⟩ : ∃ ε', ε' = ε / 2 * Real.log 2 / ((j2:ℝ) - j1 + 1) := ⟨_, rfl⟩
  have hε' : 0 < ε' := by rw [hε'd]; positivity
  have hq2 : ∀ e ∈ q, -(1 / 2) < e := fun e he => by have := hq e he; linarith
  obtain ⟨η, hη, hYη⟩ := common_precision (statList q n) (statList_asymptotic hq2) hε'
  obtain ⟨η₁, hη₁, θ, hθ, hθ2, hsubset⟩ := subset_means (testList q n) hη
  obtain ⟨N₀, hN₀⟩ := hl (testList q n ++ (testList q n).map fun p => (2 * p.1, 2 * p.2)) (by
    intro p hp
    rcases List.mem_append.1 hp with hp | hp
    · have := testList_gt' hq p hp; linarith
    · obtain ⟨p', hp', rfl⟩ := List.mem_map.1 hp
      have := testList_gt' hq p' hp'
      show -(1 / 2) < 2 * p'.1
      linarith) j2 η₁ δ hη₁ hδ
  have hF := hwt.pos
  have hF0 : (0:ℝ) < wt.dec_hi.length := by exact_mod_cast hF
  refine ⟨max N₀ (2 ^ j2 * (4 * wt.dec_hi.length + 6)), θ / (wt.dec_hi.length * 2 ^ (j2 + 1)), by positivity, ?_⟩
  intro Ω _ μ R N x A c hc hN hG weighted r missing hmiss
  have hR : R ≠ 0 := fun h0 => by subst h0; exact r.elim0
  have hN2 := (le_max_right _ _).trans hN
  have hN0 : N ≠ 0 := by
    have : 0 < 2 ^ j2 * (4 * wt.dec_hi.length + 6) := by positivity
    omega
  have hroom : ∀ j, j ≤ j2 → 2 ^ j * (4 * wt.dec_hi.length + 6) ≤ N := fun j hj =>
    (Nat.mul_le_mul_right _ (Nat.pow_le_pow_right (by norm_num) hj)).trans hN2
  have hroom1 : ∀ j, j ≤ j2 → 2 ^ j * (4 * wt.dec_hi.length + 1) ≤ N := fun j hj => (Nat.mul_le_mul_left _ (by omega)).trans (hroom j hj)
  have hN3 : 2 ^ (j2 + 1) * (wt.dec_hi.length + 1) ≤ N := by
    refine le_trans ?_ hN2
    rw [pow_succ, mul_assoc]
    exact Nat.mul_le_mul_left _ (by omega)
  have hlost : ∀ ω r' j, 1 ≤ j → j ≤ j2 → (((interior N wt.dec_hi.length j) \ intact N wt.dec_hi.length j ((missing ω r').map Nat.castEmbedding)).card : ℝ) ≤
      θ * (interior N wt.dec_hi.length j).card := fun ω r' j hj hj' =>
    lost_le hF hj hj' (hroom1 j hj') _ hθ (by rw [card_map]; exact hmiss ω r')
  have hintc : ∀ j, 1 ≤ j → j ≤ j2 → 6 ≤ (interior N wt.dec_hi.length j).card := by
    intro j hj hj'
    have h1 := interior_card_ge N wt.dec_hi.length j hj
    have h3 : 4 * wt.dec_hi.length + 6 ≤ N / 2 ^ j := by
      rw [Nat.le_div_iff_mul_le (by positivity), mul_comm]; exact hroom j hj'
    omega
  have h3 : ∀ ω (r' : Fin R) (s : ℕ), 1 ≤ s → s ≤ j2 → 3 ≤ (intact N wt.dec_hi.length s ((missing ω r').map Nat.castEmbedding)).card := by
    intro ω r' s hs hs'
    have hsub : intact N wt.dec_hi.length s ((missing ω r').map Nat.castEmbedding) ⊆ interior N wt.dec_hi.length s := filter_subset _ _
    have e1 := card_sdiff_add_card_eq_card hsub
    have e2 := hlost ω r' s hs hs'
    have e3 := hintc s hs hs'
    have e4 : θ * ((interior N wt.dec_hi.length s).card : ℝ) ≤ 1 / 2 * (interior N wt.dec_hi.length s).card :=
      mul_le_mul_of_nonneg_right hθ2 (by positivity)
    have e5 : (2:ℝ) * ((interior N wt.dec_hi.length s \ intact N wt.dec_hi.length s ((missing ω r').map Nat.castEmbedding)).card : ℝ) ≤
        (interior N wt.dec_hi.length s).card := by linarith
    have e6 : 2 * (interior N wt.dec_hi.length s \ intact N wt.dec_hi.length s ((missing ω r').map Nat.castEmbedding)).card ≤
        (interior N wt.dec_hi.length s).card := by exact_mod_cast e5
    omega
  have hne : ∀ ω, asFloats (x ω) ≠ [] := by
    intro ω h0; have := congrArg List.length h0; simp [asFloats, hG.length ω] at this; exact hN0 this
  have hne' : ∀ ω, withGaps (x ω) (missing ω) ≠ [] := by
    intro ω h0; have := congrArg List.length h0; simp [withGaps, hG.length ω] at this; exact hN0 this
  choose w hw using fun ω => C05_total (asFloats (x ω)) .none (Or.inl rfl) wt j1 (some (j2 : ℝ)) 0 1 weighted hR (hne ω) one_ne_zero
  choose w' hw' hfull using fun ω => C48_total (withGaps (x ω) (missing ω)) .none (Or.inl rfl) wt j1 (some (j2 : ℝ)) 0 1 weighted
    (some (.ndarray q)) n hR (hne' ω) one_ne_zero
  have hlong : ∀ ω, (w ω).j2_eff = j2 ∧ j2 ≤ (w ω).wt_coefs.values.length := by
    intro ω
    have h0 := hw ω
    rw [asFloats_sampled (hG.length ω)] at h0
    exact long_enough hR hwt (Or.inl rfl) (by omega) hN3 h0
  have hP : IncrementAnalysis μ wt G c 0 1 N x w := ⟨⟨A, hG⟩, .none, j1, some (j2 : ℝ), weighted, hw⟩
  obtain ⟨hτ, hμ⟩ := hN₀ hc hP ((le_max_left _ _).trans hN) (fun ω => (hlong ω).2) r
  refine (measure_mono ?_).trans hμ
  intro ω hω
  simp only [Set.mem_ofPred_eq] at hω ⊢
  intro htyp
  apply hω
  have hwg := hw' ω
  rw [withGaps_gappy (hG.length ω)] at hwg
  obtain ⟨hj2, hlen⟩ := gappy_long hwt hN0 (by omega) ((Nat.mul_le_mul_left _ (by omega)).trans hN2) (h3 ω) hwg
  obtain ⟨d, hd, -⟩ := hfull ω (by exact_mod_cast hj1) (by rw [hj2]; exact_mod_cast hj12.le) h2
  refine ⟨d, hd, ?_⟩
  obtain ⟨hreg, hg, hent⟩ := gappy_entries hwt hwg
  have hwc := hw ω
  rw [asFloats_sampled (hG.length ω)] at hwc
  -- the scales of the recording with gaps are typical
  have htyp' : ∀ p ∈ (w' ω).wt_coefs.values, p.1 ≤ j2 → ∃ xs, Entries (col p.2 r) xs ∧ TypicalScale (testList q n) η √(c * τ p.1.toNat) xs := by
    intro p hp hpJ
    obtain ⟨j, hj, hja, hjb, hr⟩ := hent p hp
    obtain ⟨xs', e1, e2, e3, e4⟩ := hr r
    have hjJ : j ≤ j2 := by rw [hj] at hpJ; exact_mod_cast hpJ
    obtain ⟨hregc, -, hentc⟩ := hP.entries hwt ω
    have hjl : j ≤ (w ω).wt_coefs.values.length := hjJ.trans (hlong ω).2
    obtain ⟨I, hI⟩ : ∃ I, I = interior N wt.dec_hi.length j := ⟨_, rfl⟩
    obtain ⟨K, hKd⟩ : ∃ K, K = intact N wt.dec_hi.length j ((missing ω r).map Nat.castEmbedding) := ⟨_, rfl⟩
    obtain ⟨p0, hp0, hk0, xs, x1, x2, x3⟩ : ∃ p0 ∈ (w ω).wt_coefs.values, p0.1 = (j : ℤ) ∧ ∃ xs : List ℝ, Entries (col p0.2 r) xs ∧
        (∀ f : ℝ → ℝ, (xs.map f).sum = ∑ k ∈ I, f ((w ω).wt_coefs.number j k r)) ∧ xs.length = I.card := by
      have hmem : (j : ℤ) ∈ (w ω).wt_coefs.values.map Prod.fst := by
        have := hregc.1
        rw [this]
        refine List.mem_map.2 ⟨j - 1, List.mem_range.2 (by omega), by push_cast [hja]; ring⟩
      obtain ⟨p0, hp0, hk⟩ := List.mem_map.1 hmem
      obtain ⟨j', hj', -, -, hr'⟩ := hentc p0 hp0
      have hjj : j' = j := by rw [hk] at hj'; exact_mod_cast hj'.symm
      subst hjj
      obtain ⟨xs, y1, y2, y3, -⟩ := hr' r
      rw [← hI] at y2 y3
      exact ⟨p0, hp0, hk, xs, y1, y2, y3⟩
    obtain ⟨xs0, z1, z2⟩ := htyp p0 hp0 (by rw [hk0]; exact_mod_cast hjJ)
    have hx0 := Entries.unique x1 z1
    subst hx0
    rw [hk0, Int.toNat_natCast] at z2
    rw [hj, Int.toNat_natCast]
    obtain ⟨σ, hσ⟩ : ∃ σ, σ = √(c * τ j) := ⟨_, rfl⟩
    rw [← hσ] at z2 ⊢
    have hKI : K ⊆ I := by rw [hI, hKd]; exact filter_subset _ _
    have hval : ∀ k ∈ K, (2:ℝ) ^ ((j : ℝ) * (1 / 2 - 1 / 1 + 0)) * idealDetail wt (fun t => ((x ω).getD t.toNat fun _ => 0) r) j k =
        (w ω).wt_coefs.number j k r := by
      intro k hk
      have hk' := hKI hk
      rw [hI] at hk'
      exact (reported_linear hwt hwc (interior_reported hwt hwc hja hjl hk' r)).2.1.symm
    rw [← hKd] at e2 e3 e4
    have hKc : 3 ≤ K.card := by rw [hKd]; exact h3 ω r j hja hjJ
    refine ⟨xs', e1, ?_, ?_, ?_⟩
    · intro h0
      rw [h0, List.length_nil] at e3
      omega
    · intro z hz
      obtain ⟨k, hk, rfl⟩ := e4 z hz
      rw [hval k hk]
      -- the same number is among those of the complete recording
      have hk' := hKI hk
      intro h0
      have hex : ∃ y ∈ xs, y = 0 := by
        by_contra hno
        push Not at hno
        have s1 := x2 fun y => if y = 0 then 1 else 0
        have s2 : (xs.map fun y : ℝ => if y = 0 then (1:ℝ) else 0).sum = 0 := by
          apply List.sum_eq_zero
          intro v hv
          obtain ⟨y, hy, rfl⟩ := List.mem_map.1 hv
          exact if_neg (hno y hy)
        rw [s2] at s1
        have s3 : (1:ℝ) ≤ ∑ k ∈ I, if (w ω).wt_coefs.number j k r = 0 then (1:ℝ) else 0 := by
          have := single_le_sum (f := fun k => if (w ω).wt_coefs.number j k r = 0 then (1:ℝ) else 0) (s := I)
            (fun k _ => by split_ifs <;> norm_num) hk'
          simp only [h0, if_true] at this
          exact this
        linarith
      obtain ⟨y, hy, hy0⟩ := hex
      exact z2.2.1 y hy hy0
    · intro p' hp'
      have hIne : I.Nonempty := ⟨_, hKI (card_pos.1 (by omega : 0 < K.card)).choose_spec⟩
      have := hsubset I K (fun k => (w ω).wt_coefs.number j k r / σ) hKI hIne
        (fun p'' h'' => by
          have := z2.2.2 p'' (List.mem_append.2 (Or.inl h''))
          rw [x2 fun y => testF p''.1 p''.2 (y / σ), x3] at this
          exact this)
        (fun p'' h'' => by
          have := z2.2.2 (2 * p''.1, 2 * p''.2) (List.mem_append.2 (Or.inr (List.mem_map.2 ⟨p'', h'', rfl⟩)))
          rw [x2 fun y => testF (2 * p''.1) (2 * p''.2) (y / σ), x3] at this
          exact this)
        (by rw [hI, hKd]; exact hlost ω r j hja hjJ) p' hp'
      rw [e2 fun y => testF p'.1 p'.2 (y / σ), e3]
      have es : ∑ k ∈ K, testF p'.1 p'.2 ((2:ℝ) ^ ((j : ℝ) * (1 / 2 - 1 / 1 + 0)) * idealDetail wt (fun t => ((x ω).getD t.toNat fun _ => 0) r) j k / σ) =
          ∑ k ∈ K, testF p'.1 p'.2 ((w ω).wt_coefs.number j k r / σ) := sum_congr rfl fun k hk => by rw [hval k hk]
      rw [es]
      exact this
  have hest := estimates_of_slopes (m := (w' ω).wt_coefs) (q := q) (n := n) (j1 := j1) (j2 := j2) (weighted := weighted) (r := r)
    (a := coefExponent h' 0 1 / 2) (B := B) (β := β) (ε := ε / 2) (by positivity) (fun Y hY => by
      obtain ⟨z, hz, hzb⟩ := slopes_typical hreg hB0 hK.pos hc hj1 hj12 hlen hτ (hYη Y hY) htyp' weighted
      refine ⟨z, hz, hzb.trans (le_of_eq ?_)⟩
      rw [← hBd, hε'd]
      field_simp)
  rw [hb] at hest
  have hbias := hj₀ j1 hj01
  have hp2 : (0:ℝ) ≤ B * (2:ℝ) ^ (-(2 * β * j1)) := by positivity
  refine monofractal_of_estimates h2 hd (hw' ω) hj2 hreg hg hj1 hj12 hlen (Bb := B * (2:ℝ) ^ (-(2 * β * j1))) ?_ ?_ hε ?_
  · intro e he
    have := mul_le_mul_of_nonneg_right (hQ e he) hp2
    linarith
  · have : B * (2:ℝ) ^ (-(2 * β * j1)) ≤ Q * (B * (2:ℝ) ^ (-(2 * β * j1))) := le_mul_of_one_le_left hp2 hQ1
    linarith
  · simp only [← mul_assoc]
    exact hest

/-- **C132, power law signals**.  Remove samples (replace them by NaN) from a long Gaussian signal with stationary increments and variogram
`2c|t|^(2H)`, even after seeing the signal.  If at most a fraction `ρ` of the samples of each realisation is missing, `ρ` small enough (given the
accuracy wanted and the scales), then with probability at least `1 - δ` `mf_analysis_full` still finds `H`, `zeta(q)`, the log-cumulants, `h(q)`
and `D(q)` within `ε` of the truth, for all `q > -1/4`. -/
theorem C132_power_law {M : ℕ} (hM : VanishingMoments wt.dec_hi M) (hM1 : 1 ≤ M) (hwt : wt.Valid) (ho : OrthonormalBank wt) {H : ℝ}
    (h0 : 0 < H) (h1 : H < 1) (hH : 4 * H - 4 * M < -1) (q : List ℝ) (n : ℕ) (h2 : (2:ℝ) ∈ q) (hq : ∀ e ∈ q, -(1 / 4) < e)
    (ε δ : ℝ) (hε : 0 < ε) (hδ : 0 < δ) : ∃ j₀ : ℕ, 1 ≤ j₀ ∧ ∀ j1 j2 : ℕ, j₀ ≤ j1 → j1 < j2 → ∃ N₀ : ℕ, ∃ ρ : ℝ, 0 < ρ ∧
    ∀ {Ω : Type u} [MeasurableSpace Ω] {μ : Measure Ω} {R N : ℕ} {x : Ω → List (Fin R → ℝ)} {A : ℕ → ℝ} {c : ℝ}, 0 < c → N₀ ≤ N →
      GaussianArray μ N x (fun n m => A n + A m - c * |(n : ℝ) - m| ^ (2 * H)) →
      ∀ (weighted : Bool) (r : Fin R) (missing : Ω → Fin R → Finset ℕ), (∀ ω r', ((missing ω r').card : ℝ) ≤ ρ * N) →
      μ {ω | ¬ ∃ d, mfAnalysisFull (withGaps (x ω) (missing ω)) j1 (some j2) 1 0 weighted wt .none (some (.ndarray q)) n = .ok d ∧
        MonofractalNear d.dwt q n H ε r} ≤ ENNReal.ofReal δ := by
  obtain ⟨j₀, hj₀, h⟩ := estimates_gaps.{u} hM hM1 hwt (powerLaw_kernel hM hM1 hwt ho h0 h1 hH) q n h2 hq ε δ hε hδ
  refine ⟨j₀, hj₀, fun j1 j2 h3 h4 => ?_⟩
  obtain ⟨N₀, ρ, hρ, hN₀⟩ := h j1 j2 h3 h4
  refine ⟨N₀, ρ, hρ, ?_⟩
  intro Ω _ μ R N x A c hc hN hG
  have e : (fun n m : ℕ => A n + A m - c * |(((n : ℤ) - m : ℤ) : ℝ)| ^ (2 * H)) = fun n m : ℕ => A n + A m - c * |(n : ℝ) - m| ^ (2 * H) := by
    funext n m; push_cast; rfl
  refine hN₀ hc hN (A := A) ?_
  rw [e]; exact hG

/-- **C132, end to end**: simulate fractional Brownian motion with `fbm`, let an adversary erase at most a fraction `ρ` of the samples:
`mf_analysis_full` still recovers the parameter `H` and the whole monofractal spectrum within `ε` with probability at least `1 - δ`. -/
theorem C132_fbm {M : ℕ} (hM : VanishingMoments wt.dec_hi M) (hM1 : 1 ≤ M) (hwt : wt.Valid) (ho : OrthonormalBank wt) {H : ℝ}
    (h0 : 0 < H) (h1 : H < 1) (hH : 4 * H - 4 * M < -1) (q : List ℝ) (n : ℕ) (h2 : (2:ℝ) ∈ q) (hq : ∀ e ∈ q, -(1 / 4) < e)
    (ε δ : ℝ) (hε : 0 < ε) (hδ : 0 < δ) : ∃ j₀ : ℕ, 1 ≤ j₀ ∧ ∀ j1 j2 : ℕ, j₀ ≤ j1 → j1 < j2 → ∃ N₀ : ℕ, ∃ ρ : ℝ, 0 < ρ ∧
    ∀ {Ω : Type u} [MeasurableSpace Ω] {μ : Measure Ω} {gen : Ω → ℕ → ℝ}, StdNormal μ gen →
    ∀ {N R : ℕ} {sigma : ℝ} {dt : Option ℝ} (z0 : Option (CArr R)), N₀ ≤ N → sigma ≠ 0 → (∀ d, dt = some d → 0 ≤ d) → R ≠ 0 →
      ∃ x : Ω → RArr R, Returns (fbm R N H sigma dt "cme" z0) gen x ∧
      ∀ (weighted : Bool) (r : Fin R) (missing : Ω → Fin R → Finset ℕ), (∀ ω r', ((missing ω r').card : ℝ) ≤ ρ * N) →
      μ {ω | ¬ ∃ d, mfAnalysisFull (withGaps (x ω) (missing ω)) j1 (some j2) 1 0 weighted wt .none (some (.ndarray q)) n = .ok d ∧
        MonofractalNear d.dwt q n H ε r} ≤ ENNReal.ofReal δ := by
  obtain ⟨j₀, hj₀, h⟩ := C132_power_law.{u} hM hM1 hwt ho h0 h1 hH q n h2 hq ε δ hε hδ
  refine ⟨j₀, hj₀, ?_⟩
  intro j1 j2 hj01 hj12
  obtain ⟨N₀, ρ, hρ, hN₀⟩ := h j1 j2 hj01 hj12
  refine ⟨max N₀ 2, ρ, hρ, ?_⟩
  intro Ω _ μ gen hg N R sigma dt z0 hN hs hdt hR
  have hN2 := (le_max_right _ _).trans hN
  obtain ⟨x, hx, hG, -⟩ := C85_fbm (R := R) (sigma := sigma) z0 h0 h1.le hN2 hdt hR hg
  have hstep := (fgnDt_eq (by omega : N ≠ 0) hdt).2
  rw [fbm_powerLaw H sigma hstep.le] at hG
  refine ⟨x, hx, fun weighted r missing hm => ?_⟩
  exact hN₀ (by positivity) ((le_max_left _ _).trans hN) hG weighted r missing hm

/-! The hypotheses are met: for `db2` and every `0 < H < 1`, with `q = [2, 1, 0, -1/5]`, when the negative samples among the first `K ≥ 1` are erased. -/
example (H : ℝ) (h0 : 0 < H) (h1 : H < 1) (ε δ : ℝ) (hε : 0 < ε) (hδ : 0 < δ) : ∃ j1 j2 N K : ℕ, 1 ≤ j1 ∧ j1 < j2 ∧ 1 ≤ K ∧
    ∃ (Ω : Type) (_ : MeasurableSpace Ω) (μ : Measure Ω) (gen : Ω → ℕ → ℝ) (x : Ω → RArr 2), StdNormal μ gen ∧
    Returns (fbm 2 N H 1 (some 1) "cme" none) gen x ∧
    μ {ω | ¬ ∃ d, mfAnalysisFull (withGaps (x ω) fun r => (range K).filter fun t => ((x ω).getD t fun _ => 0) r < 0)
        j1 (some j2) 1 0 true db2 .none (some (.ndarray [2, 1, 0, -1 / 5])) 3 = .ok d ∧
        MonofractalNear d.dwt [2, 1, 0, -1 / 5] 3 H ε 0} ≤ ENNReal.ofReal δ := by
  obtain ⟨hv, ho, hm⟩ := db2_orthonormal
  obtain ⟨j₀, hj₀, h⟩ := C132_fbm hm (by norm_num) hv ho h0 h1 (by push_cast; linarith) [2, 1, 0, -1 / 5] 3 (by simp)
    (by intro e he; simp only [List.mem_cons, List.not_mem_nil, or_false] at he; rcases he with rfl | rfl | rfl | rfl <;> norm_num) ε δ hε hδ
  obtain ⟨N₀, ρ, hρ, hN₀⟩ := h j₀ (j₀ + 1) le_rfl (by omega)
  obtain ⟨N, hN⟩ := exists_nat_gt (max (N₀ : ℝ) (1 / ρ))
  have hN1 : N₀ ≤ N := by exact_mod_cast ((le_max_left _ _).trans hN.le)
  have hN3 : 1 ≤ ρ * N := by
    have := ((le_max_right _ _).trans hN.le)
    rw [div_le_iff₀ hρ] at this
    linarith
  obtain ⟨Ω, m, μ, gen, hg⟩ := exists_stdNormal
  obtain ⟨x, hx, hb⟩ := hN₀ hg (N := N) (R := 2) (sigma := 1) (dt := some 1) none hN1 one_ne_zero (by intro d hd; cases hd; norm_num) (by norm_num)
  refine ⟨j₀, j₀ + 1, N, ⌊ρ * N⌋₊, hj₀, by omega, Nat.le_floor (by exact_mod_cast hN3), Ω, m, μ, gen, x, hg, hx, ?_⟩
  refine hb true 0 _ fun ω r' => le_trans ?_ (Nat.floor_le (by positivity : 0 ≤ ρ * (N : ℝ)))
  have := card_filter_le (range ⌊ρ * (N : ℝ)⌋₊) fun t => ((x ω).getD t fun _ => 0) r' < 0
  rw [card_range] at this
  exact_mod_cast this

end

end MFA
