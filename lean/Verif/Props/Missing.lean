import Verif.Lemmas.Missing
import Verif.Props.FilterBank
import Verif.Props.Leaders

/-! Property C125: signals with missing (NaN) or infinite samples. -/

namespace MFA

open Classical Finset

variable {R : ℕ}

theorem coef_inv {sig : Arr R} {p : PExp} {wt : Wavelet} {j1 : ℤ} {j2 : Option ℝ} {g nm : ℝ} {weighted : Bool} {w : WT R}
    (h : waveletAnalysis sig p wt j1 j2 g nm weighted = .ok w) {j k : ℕ} {r : Fin R} {v : Fl} (hv : w.wt_coefs.val? j k r = some v) :
    1 ≤ j ∧ k < sig.length / 2 ^ j ∧ (∀ i < j, 2 * (wt.dec_hi.length + 1) ≤ sig.length / 2 ^ i) ∧ v = ent (coefSeq (wparams wt g nm) sig j) k r := by
  obtain ⟨ml, K, Kc, h1, -, -, hKc', -, hc, -⟩ := wa_inv h
  rw [hc, scalesUpTo_val] at hv
  split at hv
  · rename_i hs
    rw [coefSeq_length _ _ _ hs.1] at hs
    cases hv
    exact ⟨hs.1, hs.2.2, fun i hi => level_room h1 (by omega), rfl⟩
  · cases hv

theorem number_iff_ent {sig : Arr R} {wt : Wavelet} (hwt : wt.Valid) (g nm : ℝ) (r : Fin R) {j k : ℕ} (hs : 1 ≤ j) (hk : k < sig.length / 2 ^ j)
    (hN : ∀ i < j, 2 * (wt.dec_hi.length + 1) ≤ sig.length / 2 ^ i) :
    (ent (coefSeq (wparams wt g nm) sig j) k r).IsNumber ↔
      k ∈ interior sig.length wt.dec_hi.length j ∧ ∀ t, Uses wt.dec_hi.length j k t → 0 ≤ t ∧ t < sig.length ∧ (sampleAt sig r t).IsNumber := by
  have hF := hwt.pos
  have hN' : ∀ i < j, wt.dec_hi.length ≤ sig.length / 2 ^ i + 1 := fun i hi => by have := hN i hi; omega
  by_cases hb : 2 * k + 1 < wt.dec_hi.length - 1 ∨ sig.length / 2 ^ (j - 1) < 2 * k + 1 + wt.dec_hi.length
  · rw [coef_border wt hwt g nm sig r hs hN' hk hb]
    constructor
    · rintro ⟨x, hx⟩; cases hx
    · rintro ⟨hi, -⟩
      simp only [interior, Finset.mem_filter, Finset.mem_range] at hi
      omega
  · have hf := coef_from wt hwt g nm sig r hs hN' hk hb
    constructor
    · intro hv
      refine ⟨?_, fun t ht => ⟨(hf.inside t ht).1, (hf.inside t ht).2, ?_⟩⟩
      · simp only [interior, Finset.mem_filter, Finset.mem_range]
        exact ⟨hk, by omega⟩
      · by_contra hne
        rw [sampleAt_ent _ _ (hf.inside t ht).1] at hne
        exact hf.lost t ht hne hv
    · rintro ⟨-, hall⟩
      have hx : ∀ t, ∃ y : ℝ, Uses wt.dec_hi.length j k t → ent sig t.toNat r = Fl.fin y := by
        intro t
        by_cases ht : Uses wt.dec_hi.length j k t
        · obtain ⟨h0, -, y, hy⟩ := hall t ht
          exact ⟨y, fun _ => by rw [← sampleAt_ent _ _ h0]; exact hy⟩
        · exact ⟨0, fun hc => absurd hc ht⟩
      choose x hx using hx
      exact ⟨_, hf.value x hx⟩

/-- C125: for any signal (NaN and infinities allowed), a coefficient `(j, k)` is a number iff `k` is not a border position of scale `j` and all the samples
of its window, which lies inside the recording, are numbers. -/
theorem C125_number_iff {sig : Arr R} {p : PExp} {wt : Wavelet} (hwt : wt.Valid) {j1 : ℤ} {j2 : Option ℝ} {g nm : ℝ} {weighted : Bool} {w : WT R}
    (h : waveletAnalysis sig p wt j1 j2 g nm weighted = .ok w) {j k : ℕ} {r : Fin R} {v : Fl} (hv : w.wt_coefs.val? j k r = some v) :
    v.IsNumber ↔ k ∈ interior sig.length wt.dec_hi.length j ∧ ∀ t, Uses wt.dec_hi.length j k t → 0 ≤ t ∧ t < sig.length ∧ (sampleAt sig r t).IsNumber := by
  obtain ⟨hs, hk, hN, rfl⟩ := coef_inv h hv
  exact number_iff_ent hwt g nm r hs hk hN

/-- C125: a coefficient that is a number is the ideal coefficient of any sequence that agrees with the samples of its window. -/
theorem C125_value {sig : Arr R} {p : PExp} {wt : Wavelet} (hwt : wt.Valid) {j1 : ℤ} {j2 : Option ℝ} {g nm : ℝ} {weighted : Bool} {w : WT R}
    (h : waveletAnalysis sig p wt j1 j2 g nm weighted = .ok w) {j k : ℕ} {r : Fin R} {v : Fl} (hv : w.wt_coefs.val? j k r = some v)
    (hn : v.IsNumber) {x : ℤ → ℝ} (hx : ∀ t, Uses wt.dec_hi.length j k t → sampleAt sig r t = Fl.fin (x t)) :
    v = Fl.fin ((2:ℝ) ^ ((j : ℝ) * (1 / 2 - 1 / nm + g)) * idealDetail wt x j k) := by
  have hi := ((C125_number_iff hwt h hv).1 hn).1
  obtain ⟨hs, hk, hN, rfl⟩ := coef_inv h hv
  have hF := hwt.pos
  have hN' : ∀ i < j, wt.dec_hi.length ≤ sig.length / 2 ^ i + 1 := fun i hi => by have := hN i hi; omega
  simp only [interior, Finset.mem_filter, Finset.mem_range] at hi
  have hf := coef_from wt hwt g nm sig r hs hN' hk (by omega)
  rw [hf.value x fun t ht => by rw [← sampleAt_ent _ _ (hf.inside t ht).1]; exact hx t ht, scaleFactor_eq]

theorem sampleAt_gappy {N : ℕ} (x : Fin R → ℤ → ℝ) (missing : Fin R → Finset ℤ) (r : Fin R) {t : ℤ} (h0 : 0 ≤ t) (h1 : t < (N : ℤ)) :
    sampleAt (gappy N x missing) r t = if t ∈ missing r then Fl.nan else Fl.fin (x r t) := by
  rw [sampleAt_ent _ _ h0, ent_gappy x missing (by omega), show ((t.toNat : ℕ) : ℤ) = t by omega]

theorem gappy_nan_iff {N : ℕ} (x : Fin R → ℤ → ℝ) (missing : Fin R → Finset ℤ) {wt : Wavelet} (hwt : wt.Valid) (g nm : ℝ) (r : Fin R) {j k : ℕ} (hs : 1 ≤ j)
    (hk : k < N / 2 ^ j) (hN : ∀ i < j, 2 * (wt.dec_hi.length + 1) ≤ N / 2 ^ i) :
    ent (coefSeq (wparams wt g nm) (gappy N x missing) j) k r = Fl.nan ↔
      k ∉ interior N wt.dec_hi.length j ∨ ∃ t ∈ missing r, Uses wt.dec_hi.length j k t := by
  have hiff := number_iff_ent (sig := gappy N x missing) hwt g nm r hs (by rw [gappy_length]; exact hk) (by rw [gappy_length]; exact hN)
  rw [gappy_length] at hiff
  have hno : ent (coefSeq (wparams wt g nm) (gappy N x missing) j) k r = Fl.nan ↔ ¬ (ent (coefSeq (wparams wt g nm) (gappy N x missing) j) k r).IsNumber := by
    have hn := noInf_coef (wparams wt g nm) (noInf_gappy N x missing r) j k
    constructor
    · rintro e ⟨y, hy⟩; rw [e] at hy; cases hy
    · intro hne; exact hn.resolve_right hne
  rw [hno, hiff]
  constructor
  · intro hc
    by_contra hcon
    push Not at hcon
    refine hc ⟨hcon.1, fun t ht => ?_⟩
    have hF := hwt.pos
    have hi := hcon.1
    simp only [interior, Finset.mem_filter, Finset.mem_range] at hi
    have hf := coef_from wt hwt g nm (gappy N x missing) r hs (fun i hi => by rw [gappy_length]; have := hN i hi; omega)
      (by rw [gappy_length]; exact hk) (by rw [gappy_length]; omega)
    rw [gappy_length] at hf
    obtain ⟨h0, h1⟩ := hf.inside t ht
    exact ⟨h0, h1, x r t, by rw [sampleAt_gappy x missing r h0 h1, if_neg fun hm => hcon.2 t hm ht]⟩
  · rintro (hc | ⟨t, hm, ht⟩) ⟨h1, h2⟩
    · exact hc h1
    · obtain ⟨h0, h3, y, hy⟩ := h2 t ht
      rw [sampleAt_gappy x missing r h0 h3, if_pos hm] at hy
      cases hy

/-- C125: in a recording with missing samples, the coefficient `(j, k)` is NaN iff `k` is a border position of scale `j` or its window contains a missing
sample.  Otherwise it is the ideal coefficient of `x`: its value does not depend on what the missing samples would have been. -/
theorem C125_missing {N : ℕ} {x : Fin R → ℤ → ℝ} {missing : Fin R → Finset ℤ} {p : PExp} {wt : Wavelet} (hwt : wt.Valid) {j1 : ℤ} {j2 : Option ℝ} {g nm : ℝ}
    {weighted : Bool} {w : WT R} (h : waveletAnalysis (gappy N x missing) p wt j1 j2 g nm weighted = .ok w) {j k : ℕ} {r : Fin R} {v : Fl}
    (hv : w.wt_coefs.val? j k r = some v) :
    (v = Fl.nan ↔ k ∉ interior N wt.dec_hi.length j ∨ ∃ t ∈ missing r, Uses wt.dec_hi.length j k t) ∧
    (v ≠ Fl.nan → v = Fl.fin ((2:ℝ) ^ ((j : ℝ) * (1 / 2 - 1 / nm + g)) * idealDetail wt (x r) j k)) := by
  have hiff := C125_number_iff hwt h hv
  rw [gappy_length] at hiff
  obtain ⟨hs, hk, hN, e⟩ := coef_inv h hv
  rw [gappy_length] at hk hN
  refine ⟨by rw [e]; exact gappy_nan_iff x missing hwt g nm r hs hk hN, fun hne => ?_⟩
  have hnum : v.IsNumber := by
    have hn := noInf_coef (wparams wt g nm) (noInf_gappy N x missing r) j k
    rw [← e] at hn
    exact hn.resolve_left hne
  obtain ⟨-, h2⟩ := hiff.1 hnum
  refine C125_value hwt h hv hnum fun t ht => ?_
  obtain ⟨h0, h3, y, hy⟩ := h2 t ht
  rw [sampleAt_gappy x missing r h0 h3] at hy ⊢
  split at hy
  · cases hy
  · rename_i hm; rw [if_neg hm]

/-- C125: a coefficient that is not NaN is exactly the coefficient of the complete recording. -/
theorem C125_same {N : ℕ} {x : Fin R → ℤ → ℝ} {missing : Fin R → Finset ℤ} {p p' : PExp} {wt : Wavelet} (hwt : wt.Valid) {j1 j1' : ℤ} {j2 j2' : Option ℝ} {g nm : ℝ}
    {weighted weighted' : Bool} {w w' : WT R} (h : waveletAnalysis (gappy N x missing) p wt j1 j2 g nm weighted = .ok w)
    (h' : waveletAnalysis (sampled N x) p' wt j1' j2' g nm weighted' = .ok w') {j k : ℕ} {r : Fin R} {v v' : Fl}
    (hv : w.wt_coefs.val? j k r = some v) (hv' : w'.wt_coefs.val? j k r = some v') (hne : v ≠ Fl.nan) : v = v' := by
  obtain ⟨h1, h2⟩ := C125_missing hwt h hv
  have hi : k ∈ interior N wt.dec_hi.length j := by by_contra hc; exact hne (h1.2 (Or.inl hc))
  have hF := hwt.pos
  simp only [interior, Finset.mem_filter, Finset.mem_range] at hi
  rw [h2 hne, C08_ideal hwt h' hv' fun e => by have := (C06_nan_pattern hwt h' hv').1 e; omega]

/-- C125: a leader of a recording with missing samples is at most the leader of the complete recording, and equal to it if no missing sample is in the window of a
coefficient of its dyadic neighbourhood. -/
theorem C125_leaders {N : ℕ} {x : Fin R → ℤ → ℝ} {missing : Fin R → Finset ℤ} {wt : Wavelet} (hwt : wt.Valid) {j1 j1' : ℤ} {j2 j2' : Option ℝ} {g nm : ℝ}
    {weighted weighted' : Bool} {w w' : WT R} (h : waveletAnalysis (gappy N x missing) .inf wt j1 j2 g nm weighted = .ok w)
    (h' : waveletAnalysis (sampled N x) .inf wt j1' j2' g nm weighted' = .ok w') :
    ∃ l l', w.wt_leaders = some l ∧ w'.wt_leaders = some l' ∧ ∀ (j k : ℕ) (r : Fin R) v v', l.val? j k r = some v → l'.val? j k r = some v' →
      (v ≠ Fl.nan → Fl.le v v') ∧
      ((∀ j' k', InNbhd j k j' k' → ∀ t ∈ missing r, ¬ Uses wt.dec_hi.length j' k' t) → v = v') := by
  obtain ⟨l, hl, H⟩ := C16_leaders h
  obtain ⟨l', hl', H'⟩ := C16_leaders h'
  refine ⟨l, l', hl, hl', fun j k r v v' hv hv' => ?_⟩
  obtain ⟨a1, a2, a3, a4⟩ := H j k r v hv
  obtain ⟨b1, b2, b3, b4⟩ := H' j k r v' hv'
  have hle : v ≠ Fl.nan → Fl.le v v' := by
    intro hne
    obtain ⟨j', k', d, hn, hd, e⟩ := a3 hne
    obtain ⟨d', hd'⟩ := b1 j' k' hn
    have hdn : d ≠ Fl.nan := by rintro rfl; exact hne e
    have := C125_same hwt h h' hd hd' hdn
    subst this
    rw [e]
    exact b4 j' k' d hn hd' hdn
  refine ⟨hle, fun hun => ?_⟩
  have hback : ∀ j' k' d', InNbhd j k j' k' → w'.wt_coefs.val? j' k' r = some d' → d' ≠ Fl.nan → w.wt_coefs.val? j' k' r = some d' := by
    intro j' k' d' hn hd' hne'
    obtain ⟨d, hd⟩ := a1 j' k' hn
    have hF := hwt.pos
    have hdn : d ≠ Fl.nan := by
      rintro rfl
      rcases (C125_missing hwt h hd).1.1 rfl with hc | ⟨t, hm, ht⟩
      · have hnb := mt (C06_nan_pattern hwt h' hd').2 hne'
        obtain ⟨-, hk, -⟩ := coef_inv h' hd'
        rw [sampled_length] at hk
        simp only [interior, Finset.mem_filter, Finset.mem_range] at hc
        omega
      · exact hun j' k' hn t hm ht
    rw [hd, C125_same hwt h h' hd hd' hdn]
  by_cases hv0 : v' = Fl.nan
  · have : v = Fl.nan := by
      by_contra hne
      obtain ⟨j', k', d, hn, hd, e⟩ := a3 hne
      have hdn : d ≠ Fl.nan := by rintro rfl; exact hne e
      have h0 := (b2.1 hv0) j' k' hn
      have := C125_same hwt h h' hd h0 hdn
      exact hdn this
    rw [this, hv0]
  · obtain ⟨j', k', d', hn, hd', e⟩ := b3 hv0
    have hdn : d' ≠ Fl.nan := by rintro rfl; exact hv0 e
    have hd := hback j' k' d' hn hd' hdn
    have h1 := a4 j' k' d' hn hd hdn
    rw [← e] at h1
    have hne : v ≠ Fl.nan := by
      intro hc
      have := a2.1 hc j' k' hn
      rw [hd] at this
      exact hdn (Option.some.inj this)
    exact Fl.le_antisymm' (hle hne) h1

theorem interior_sub {N F j k : ℕ} (h : k ∈ interior N F j) : k < N / 2 ^ j := by
  simp only [interior, Finset.mem_filter, Finset.mem_range] at h
  exact h.1

theorem countP_range_card' (n : ℕ) (q : ℕ → Prop) [DecidablePred q] : (List.range n).countP (fun k => decide (q k)) = ((Finset.range n).filter q).card := by
  rw [List.countP_eq_length_filter]
  rfl

theorem count_gappy {N : ℕ} (x : Fin R → ℤ → ℝ) (missing : Fin R → Finset ℤ) {wt : Wavelet} (hwt : wt.Valid) (g nm : ℝ) (r : Fin R) {j : ℕ} (hs : 1 ≤ j)
    (hN : ∀ i < j, 2 * (wt.dec_hi.length + 1) ≤ N / 2 ^ i) :
    countNotNaN (col (coefSeq (wparams wt g nm) (gappy N x missing) j) r) = (intact N wt.dec_hi.length j (missing r)).card := by
  have hlen : (coefSeq (wparams wt g nm) (gappy N x missing) j).length = N / 2 ^ j := by rw [coefSeq_length _ _ _ hs, gappy_length]
  have hset : intact N wt.dec_hi.length j (missing r) = (Finset.range (N / 2 ^ j)).filter fun k => k ∈ intact N wt.dec_hi.length j (missing r) := by
    ext k
    simp only [Finset.mem_filter, Finset.mem_range]
    exact ⟨fun h => ⟨interior_sub (Finset.mem_filter.1 h).1, h⟩, fun h => h.2⟩
  rw [col_range, hlen, countNotNaN_countP, List.countP_map, hset, ← countP_range_card']
  apply List.countP_congr
  intro k hk
  rw [List.mem_range] at hk
  have := gappy_nan_iff x missing hwt g nm r hs hk hN
  simp only [Function.comp, decide_eq_true_eq]
  rw [intact, Finset.mem_filter]
  constructor
  · intro h
    have hne : ¬ ent (coefSeq (wparams wt g nm) (gappy N x missing) j) k r = Fl.nan := by intro e; rw [e] at h; simp at h
    rw [this] at hne
    push Not at hne
    exact hne
  · rintro ⟨h1, h2⟩
    have hne : ¬ ent (coefSeq (wparams wt g nm) (gappy N x missing) j) k r = Fl.nan := by
      rw [this]; push Not; exact ⟨h1, h2⟩
    generalize ent (coefSeq (wparams wt g nm) (gappy N x missing) j) k r = v at hne
    cases v <;> simp_all

/-- C125: `nj` counts the intact positions. -/
theorem C125_nj {N : ℕ} {x : Fin R → ℤ → ℝ} {missing : Fin R → Finset ℤ} {p : PExp} {wt : Wavelet} (hwt : wt.Valid) {j1 : ℤ} {j2 : Option ℝ} {g nm : ℝ}
    {weighted : Bool} {w : WT R} (h : waveletAnalysis (gappy N x missing) p wt j1 j2 g nm weighted = .ok w) {j n : ℕ} {r : Fin R}
    (hn : w.wt_coefs.nj? j r = some n) : n = (intact N wt.dec_hi.length j (missing r)).card := by
  obtain ⟨ml, K, Kc, h1, -, -, hKc', -, hc, -⟩ := wa_inv h
  rw [gappy_length] at h1
  rw [hc, scalesUpTo_nj] at hn
  split at hn
  · rename_i hs
    rw [← Option.some.inj hn, count_gappy x missing hwt g nm r hs.1 fun i hi => level_room h1 (by omega)]
  · cases hn

/-- C125: without a finite `p_exp` missing samples never make the analysis fail, and scale `J`, if it is within the decomposition level, is available in the
coefficients as soon as the scales `1..J` have three intact positions in every realisation. -/
theorem C125_scales {N : ℕ} (x : Fin R → ℤ → ℝ) (missing : Fin R → Finset ℤ) {wt : Wavelet} (hwt : wt.Valid) (j1 : ℤ) (j2 : Option ℝ) (g nm : ℝ) (weighted : Bool)
    (hR : R ≠ 0) (hN : N ≠ 0) (hnm : nm ≠ 0) {J : ℕ} (hJ : 2 ^ J * (wt.dec_hi.length + 1) ≤ N)
    (h3 : ∀ (r : Fin R) (s : ℕ), 1 ≤ s → s ≤ J → 3 ≤ (intact N wt.dec_hi.length s (missing r)).card) :
    ∃ w, waveletAnalysis (gappy N x missing) .none wt j1 j2 g nm weighted = .ok w ∧
      ∀ (r : Fin R) (s : ℕ), 1 ≤ s → s ≤ J → w.wt_coefs.nj? s r = some (intact N wt.dec_hi.length s (missing r)).card := by
  obtain ⟨w, hw⟩ := C05_total (gappy N x missing) .none (Or.inl rfl) wt j1 j2 g nm weighted hR (by
    intro e; have := gappy_length N x missing; rw [e] at this; exact hN this.symm) hnm
  refine ⟨w, hw, ?_⟩
  obtain ⟨ml, K, h1, h2, -, h4⟩ := wa_none_inv hw
  rw [gappy_length] at h1
  have hml : J ≤ ml.toNat := by
    have := ((maxLevel_iff hN ml).1 h1).2
    by_contra hc
    have hle : ml + 1 ≤ (J : ℤ) := by omega
    have h5 : (2:ℝ) ^ (ml + 1) ≤ (2:ℝ) ^ (J : ℤ) := zpow_le_zpow_right₀ (by norm_num) hle
    have h6 : ((2 ^ J * (wt.dec_hi.length + 1) : ℕ) : ℝ) ≤ N := by exact_mod_cast hJ
    push_cast at h6
    rw [zpow_natCast] at h5
    have h7 := mul_le_mul_of_nonneg_right h5 (by positivity : (0:ℝ) ≤ (wt.dec_hi.length : ℝ) + 1)
    linarith
  have hKJ : J ≤ K := by
    by_contra hc
    have := h2.2.2 (by omega)
    rw [not_not, tooFew_iff] at this
    obtain ⟨r, hr⟩ := this
    rw [count_gappy x missing hwt g nm r (by omega) fun i hi => level_room h1 (by omega)] at hr
    have := h3 r (1 + K) (by omega) (by omega)
    omega
  intro r s hs hsJ
  rw [h4]
  show (scalesUpTo .coef g (coefSeq (wparams wt g nm) (gappy N x missing)) K).nj? s r = _
  rw [scalesUpTo_nj, if_pos ⟨hs, by omega⟩, count_gappy x missing hwt g nm r hs fun i hi => level_room h1 (by omega)]

/-- C125: a gap of `L` samples destroys at most `(L - 1 + (2^j - 1)(F - 1)) / 2^j + 1` coefficients of scale `j`. -/
theorem C125_gap {N F j : ℕ} (hF : 1 ≤ F) {missing : Finset ℤ} {a : ℤ} {L : ℕ} (hL : 1 ≤ L) (hm : ∀ t ∈ missing, a ≤ t ∧ t < a + L) :
    (interior N F j).card ≤ (intact N F j missing).card + ((L - 1 + (2 ^ j - 1) * (F - 1)) / 2 ^ j + 1) := by
  obtain ⟨S, hS⟩ : ∃ S : Finset ℕ, S = (interior N F j).filter fun (k : ℕ) => ¬ ∀ t ∈ missing, ¬ Uses F j k t := ⟨_, rfl⟩
  have hsplit : (interior N F j).card = (intact N F j missing).card + S.card := by
    rw [hS, intact]
    exact (Finset.card_filter_add_card_filter_not _).symm
  rw [hsplit]
  refine Nat.add_le_add_left ?_ _
  rcases S.eq_empty_or_nonempty with he | hne
  · rw [he]; simp
  · obtain ⟨k0, hk0⟩ : ∃ k0, k0 = S.min' hne := ⟨_, rfl⟩
    obtain ⟨W, hW⟩ : ∃ W, W = L - 1 + (2 ^ j - 1) * (F - 1) := ⟨_, rfl⟩
    have hp : (0:ℕ) < 2 ^ j := by positivity
    have hWc : (W : ℤ) = L - 1 + ((2:ℤ) ^ j - 1) * (F - 1) := by
      rw [hW]; push_cast [Nat.cast_sub hL, Nat.cast_sub hF, Nat.cast_sub hp]; ring
    have hbd : ∀ k ∈ S, a ≤ lastSample F j k ∧ firstSample F j k ≤ a + L - 1 := by
      intro k hk
      rw [hS, Finset.mem_filter] at hk
      have := hk.2
      push Not at this
      obtain ⟨t, ht, hu⟩ := this
      have := hm t ht
      exact ⟨this.1.trans hu.2, hu.1.trans (by omega)⟩
    have hsub : S ⊆ Finset.Icc k0 (k0 + W / 2 ^ j) := by
      intro k hk
      have h0 : k0 ≤ k := by rw [hk0]; exact S.min'_le k hk
      rw [Finset.mem_Icc]
      refine ⟨h0, ?_⟩
      have h1 := (hbd k0 (by rw [hk0]; exact S.min'_mem hne)).1
      have h2 := (hbd k hk).2
      rw [last_eq] at h1
      rw [show (k : ℤ) = k0 + ((k - k0 : ℕ) : ℤ) by omega, firstSample_add] at h2
      have h3 : (2:ℤ) ^ j * ((k - k0 : ℕ) : ℤ) ≤ W := by rw [hWc]; linarith
      have h4 : 2 ^ j * (k - k0) ≤ W := by exact_mod_cast h3
      have h5 : k - k0 ≤ W / 2 ^ j := by rw [Nat.le_div_iff_mul_le hp, mul_comm]; exact h4
      omega
    calc S.card ≤ (Finset.Icc k0 (k0 + W / 2 ^ j)).card := Finset.card_le_card hsub
      _ = W / 2 ^ j + 1 := by rw [Nat.card_Icc]; generalize W / 2 ^ j = z; omega
      _ = _ := by rw [hW]

/-- C125: at every scale a missing sample destroys at most `max (F - 1) 1` coefficients, so `G` missing samples destroy at most `G max (F - 1) 1`. -/
theorem C125_isolated {N F j : ℕ} (hF : 1 ≤ F) (missing : Finset ℤ) :
    (interior N F j).card ≤ (intact N F j missing).card + missing.card * max (F - 1) 1 := by
  induction missing using Finset.induction_on with
  | empty => simp [intact]
  | insert t M ht ih =>
    have hone := C125_gap (N := N) (F := F) (j := j) hF (missing := {t}) (a := t) (L := 1) le_rfl (by simp)
    have hb : (1 - 1 + (2 ^ j - 1) * (F - 1)) / 2 ^ j + 1 ≤ max (F - 1) 1 := by
      have hp : (0:ℕ) < 2 ^ j := by positivity
      rcases Nat.lt_or_ge F 2 with h | h
      · have : F = 1 := by omega
        subst this; simp
      · refine le_max_of_le_left ?_
        have : (1 - 1 + (2 ^ j - 1) * (F - 1)) / 2 ^ j < F - 1 := by
          rw [Nat.div_lt_iff_lt_mul hp]
          have h1 : (2 ^ j - 1) * (F - 1) < 2 ^ j * (F - 1) := Nat.mul_lt_mul_of_pos_right (by omega) (by omega)
          rw [mul_comm (F - 1)]; omega
        omega
    rw [Finset.card_insert_of_notMem ht]
    have hsub : intact N F j M \ ((interior N F j) \ intact N F j {t}) ⊆ intact N F j (insert t M) := by
      intro k hk
      rw [Finset.mem_sdiff, Finset.mem_sdiff, not_and_not_right] at hk
      obtain ⟨h1, h2⟩ := hk
      have hi := (Finset.mem_filter.1 h1).1
      have h3 := (Finset.mem_filter.1 (h2 hi)).2
      refine Finset.mem_filter.2 ⟨hi, fun u hu => ?_⟩
      rcases Finset.mem_insert.1 hu with rfl | hu
      · exact h3 u (by simp)
      · exact (Finset.mem_filter.1 h1).2 u hu
    have h4 := Finset.card_le_card hsub
    have h5 := Finset.le_card_sdiff ((interior N F j) \ intact N F j {t}) (intact N F j M)
    have h6 : ((interior N F j) \ intact N F j {t}).card = (interior N F j).card - (intact N F j {t}).card :=
      Finset.card_sdiff_of_subset (Finset.filter_subset _ _)
    have h7 : (M.card + 1) * max (F - 1) 1 = M.card * max (F - 1) 1 + max (F - 1) 1 := by ring
    omega

theorem Fl.fin_mul_inf {a : ℝ} (ha : a ≠ 0) {v : Fl} (hv : v = Fl.pinf ∨ v = Fl.ninf) : Fl.fin a * v = Fl.pinf ∨ Fl.fin a * v = Fl.ninf := by
  rcases hv with rfl | rfl
  · show Fl.sgnInf a = _ ∨ Fl.sgnInf a = _
    unfold Fl.sgnInf
    rcases lt_or_gt_of_ne ha with h | h
    · rw [if_neg (by linarith), if_pos h]; simp
    · rw [if_pos h]; simp
  · show Fl.sgnInf (-a) = _ ∨ Fl.sgnInf (-a) = _
    unfold Fl.sgnInf
    rcases lt_or_gt_of_ne ha with h | h
    · rw [if_pos (by linarith)]; simp
    · rw [if_neg (by linarith), if_pos (by linarith)]; simp

theorem Fl.number_add_inf {a v : Fl} (ha : a.IsNumber) (hv : v = Fl.pinf ∨ v = Fl.ninf) : a + v = v ∧ v + a = v := by
  obtain ⟨x, rfl⟩ := ha
  rcases hv with rfl | rfl <;> exact ⟨rfl, rfl⟩

theorem sum_one_inf {v : Fl} (hv : v = Fl.pinf ∨ v = Fl.ninf) : ∀ (n : ℕ) (f : ℕ → Fl) (i : ℕ), i < n → f i = v → (∀ m < n, m ≠ i → (f m).IsNumber) →
    ((List.range n).map f).sum = v := by
  have hnum : ∀ (n : ℕ) (f : ℕ → Fl), (∀ m < n, (f m).IsNumber) → ((List.range n).map f).sum.IsNumber := by
    intro n
    induction n with
    | zero => intro f _; exact ⟨0, rfl⟩
    | succ n ih =>
      intro f h
      rw [List.range_succ, List.map_append, List.sum_append]
      obtain ⟨a, ha⟩ := ih f fun m hm => h m (by omega)
      obtain ⟨b, hb⟩ := h n (by omega)
      rw [ha, List.map_singleton, List.sum_singleton, hb, Fl.fin_add]
      exact ⟨_, rfl⟩
  intro n
  induction n with
  | zero => intro f i hi; omega
  | succ n ih =>
    intro f i hi hfi h
    rw [List.range_succ, List.map_append, List.sum_append, List.map_singleton, List.sum_singleton]
    by_cases hin : i = n
    · subst hin
      rw [hfi]
      exact (Fl.number_add_inf (hnum i f fun m hm => h m (by omega) (by omega)) hv).1
    · rw [ih f i (by omega) hfi fun m hm hne => h m (by omega) hne]
      exact (Fl.number_add_inf (h n (by omega) (by omega)) hv).2

/-- C125: infinite samples are not removed.  If exactly one sample of the window of a coefficient of scale 1 is infinite and the tap it meets is not zero, the
coefficient is stored as an infinite value (and counted in `nj`, which only leaves out NaN). -/
theorem C125_infinite {sig : Arr R} {p : PExp} {wt : Wavelet} (hwt : wt.Valid) {j1 : ℤ} {j2 : Option ℝ} {g nm : ℝ} {weighted : Bool} {w : WT R}
    (h : waveletAnalysis sig p wt j1 j2 g nm weighted = .ok w) {k : ℕ} {r : Fin R} {v : Fl} (hv : w.wt_coefs.val? 1 k r = some v)
    (hi : k ∈ interior sig.length wt.dec_hi.length 1) {m : ℕ} (hm : m < wt.dec_hi.length) (htap : wt.dec_hi.getD m 0 ≠ 0)
    (hinf : sampleAt sig r (2 * k + 1 + ((wt.dec_hi.length - 1) / 2 : ℕ) - m) = Fl.pinf ∨ sampleAt sig r (2 * k + 1 + ((wt.dec_hi.length - 1) / 2 : ℕ) - m) = Fl.ninf)
    (hrest : ∀ t, Uses wt.dec_hi.length 1 k t → t ≠ 2 * k + 1 + ((wt.dec_hi.length - 1) / 2 : ℕ) - m → (sampleAt sig r t).IsNumber) :
    v = Fl.pinf ∨ v = Fl.ninf := by
  obtain ⟨-, hk, hN, rfl⟩ := coef_inv h hv
  have hF := hwt.pos
  simp only [interior, Finset.mem_filter, Finset.mem_range, Nat.sub_self, pow_zero, Nat.div_one] at hi
  rw [coefSeq, scaled, ent_mapArr _ _ (by rw [detailSeq_length]; exact hk), Nat.sub_self, detailSeq, filtering_eq, approxSeq]
  have hh : (wparams wt g nm).high.length = wt.dec_hi.length := by simp [wparams]
  simp only
  rw [hh, filt_at hh hF (by omega) r (by simpa using hk) (by omega)]
  have hu : ∀ m' < wt.dec_hi.length, Uses wt.dec_hi.length 1 k (2 * k + 1 + ((wt.dec_hi.length - 1) / 2 : ℕ) - (m' : ℕ)) := by
    intro m' hm'
    unfold Uses firstSample lastSample
    constructor <;> (push_cast; omega)
  have hs : ∀ m' < wt.dec_hi.length, ent sig (2 * k + 1 + (wt.dec_hi.length - 1) / 2 - m') r
      = sampleAt sig r (2 * k + 1 + ((wt.dec_hi.length - 1) / 2 : ℕ) - (m' : ℕ)) := by
    intro m' hm'
    rw [sampleAt_ent _ _ (by omega)]
    congr 1
    omega
  have htap' : ∀ m' < wt.dec_hi.length, (wparams wt g nm).high.getD m' 0 = - wt.dec_hi.getD m' 0 := by
    intro m' hm'
    simp [wparams, List.getD, hm']
  have hterm : Fl.fin ((wparams wt g nm).high.getD m 0) * ent sig (2 * k + 1 + (wt.dec_hi.length - 1) / 2 - m) r = Fl.pinf ∨
      Fl.fin ((wparams wt g nm).high.getD m 0) * ent sig (2 * k + 1 + (wt.dec_hi.length - 1) / 2 - m) r = Fl.ninf := by
    rw [htap' m hm, hs m hm]
    exact Fl.fin_mul_inf (neg_ne_zero.2 htap) hinf
  rw [sum_one_inf hterm wt.dec_hi.length _ m hm rfl]
  · rw [mul_comm, mul_comm (_ * _) (Fl.fin ((2:ℝ) ^ ((1:ℕ) * (1 / 2 - 1 / (wparams wt g nm).normalization))))]
    exact Fl.fin_mul_inf (by positivity) (Fl.fin_mul_inf (by positivity) hterm)
  · intro m' hm' hne
    rw [hs m' hm']
    obtain ⟨y, hy⟩ := hrest _ (hu m' hm') (by omega)
    rw [hy, Fl.fin_mul]
    exact ⟨_, rfl⟩

/-- The hypotheses of the theorems above on a concrete recording: 24 samples of any sequence, one of them missing, analysed with `haar`.  Both scales that the
complete recording has are still there, with one coefficient less at most. -/
example (x : Fin 1 → ℤ → ℝ) : ∃ w, waveletAnalysis (gappy 24 x fun _ => {10}) .none haar 1 none 0 1 true = .ok w ∧
    ∀ (r : Fin 1) (s : ℕ), 1 ≤ s → s ≤ 2 → w.wt_coefs.nj? s r = some (intact 24 2 s {10}).card := by
  refine C125_scales x (fun _ => {10}) ⟨rfl, by simp [haar]⟩ 1 none 0 1 true (by norm_num) (by norm_num) (by norm_num) (J := 2) (by simp [haar]) fun r s hs hs2 => ?_
  have h := C125_isolated (N := 24) (F := 2) (j := s) (by norm_num) {10}
  rw [show haar.dec_hi.length = 2 by simp [haar]]
  rcases (by omega : s = 1 ∨ s = 2) with rfl | rfl
  · have : (interior 24 2 1).card = 11 := by decide
    rw [this] at h
    simp at h
    omega
  · have : (interior 24 2 2).card = 5 := by decide
    rw [this] at h
    simp at h
    omega

/-- The window of the coefficient `(2, 2)` of `haar` is the samples 8 to 11, so the missing sample 10 destroys it. -/
example : Uses 2 2 2 10 ∧ ¬ Uses 2 2 1 10 := by
  unfold Uses firstSample lastSample
  norm_num

end MFA
