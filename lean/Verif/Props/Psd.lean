import Verif.Props.FilterBank
import Verif.Model.Psd

/-! Properties C55 - C57: spectral estimation and the 1/f slope. -/

namespace MFA

open Classical Finset Polynomial

variable {R : ℕ}

/-! ### C55 -/

theorem list_sum_filter_range (n : ℕ) (P : ℕ → Prop) (f : ℕ → ℝ) :
    (((List.range n).filter fun k => decide (¬ P k)).map f).sum = ∑ k ∈ (range n).filter (fun k => ¬ P k), f k := by
  induction n with
  | zero => simp
  | succ n ih =>
    rw [List.range_succ, List.filter_append, List.map_append, List.sum_append, ih, Finset.range_add_one,
      Finset.filter_insert]
    by_cases h : P n
    · simp [h]
    · simp [h, add_comm]

theorem list_length_filter_range (n : ℕ) (P : ℕ → Prop) :
    ((List.range n).filter fun k => decide (¬ P k)).length = ((range n).filter (fun k => ¬ P k)).card := by
  induction n with
  | zero => simp
  | succ n ih =>
    rw [List.range_succ, List.filter_append, List.length_append, ih, Finset.range_add_one, Finset.filter_insert]
    by_cases h : P n
    · simp [h]
    · simp [h]

theorem dropNaN_ite (l : List ℕ) (P : ℕ → Prop) (f : ℕ → ℝ) :
    dropNaN (l.map fun k => if P k then Fl.nan else Fl.fin (f k))
      = ((l.filter fun k => decide (¬ P k)).map f).map Fl.fin := by
  induction l with
  | nil => rfl
  | cons a l ih =>
    by_cases h : P a
    · simp only [List.map_cons, if_pos h, dropNaN_cons_nan, ih]
      simp [h]
    · simp only [List.map_cons, if_neg h]
      rw [dropNaN_cons_of rfl, ih]
      simp [h]

theorem nanmean_ite {n : ℕ} {P : ℕ → Prop} (f : ℕ → ℝ) (h : ((range n).filter (fun k => ¬ P k)).Nonempty) :
    nanmean ((List.range n).map fun k => if P k then Fl.nan else Fl.fin (f k))
      = Fl.fin ((∑ k ∈ (range n).filter (fun k => ¬ P k), f k) / ((range n).filter (fun k => ¬ P k)).card) := by
  rw [← nanmean_dropNaN, dropNaN_ite, nanmean_map_fin, list_sum_filter_range, List.length_map, list_length_filter_range]
  intro h0
  have := congrArg List.length h0
  rw [List.length_map, list_length_filter_range] at this
  simp at this
  obtain ⟨k, hk⟩ := h
  simp at hk
  exact hk.2 (this hk.1)

theorem interior_eq (N F j : ℕ) (hF : 1 ≤ F) : interior N F j = (range (N / 2 ^ j)).filter fun k => ¬ Bord N F j k := by
  ext k
  rw [interior, Finset.mem_filter, Finset.mem_filter, Bord]
  apply and_congr_right
  intro _
  omega

theorem mapArr_getElem (f : Fl → Fl) (a : Arr R) (i : ℕ) (h : i < a.length) (h' : i < (mapArr f a).length) (r : Fin R) :
    (mapArr f a)[i] r = f (a[i] r) :=
  congrFun (List.getElem_map (l := a) (i := i) (fun (row : Row R) (r : Fin R) => f (row r)) (h := h')) r

theorem we_inv {pywt : WaveletLookup} {sig : Arr R} {fs : ℝ} {n : ℕ} {j2 : Option ℝ} {s : PSD R}
    (h : waveletEstimation pywt sig fs n j2 = .ok s) :
    ∃ wt w, pywt ("db" ++ toString n) = .ok wt ∧ waveletAnalysis sig .none wt 1 j2 (1 / 2) 1 false = .ok w ∧
      s.psd = (w.wt_coefs.values.map fun p => meanSquare p.2) ∧
      s.freq = (List.range w.wt_coefs.values.length).map fun (i : ℕ) => (3 / 4 * fs) / (2:ℝ) ^ (i + 1) := by
  unfold waveletEstimation at h
  cases hp : pywt ("db" ++ toString n) with
  | error e => simp only [hp] at h; cases h
  | ok wt =>
    simp only [hp] at h
    cases hw : waveletAnalysis sig .none wt 1 j2 (1 / 2) 1 false with
    | error e => simp only [hw] at h; cases h
    | ok w =>
      simp only [hw] at h
      cases h
      exact ⟨wt, w, rfl, hw, rfl, by simp⟩

/-- C55: the frequencies of the wavelet PSD are those of the scales `1, 2, ...`: `scale2freq(j) = (3/4) fs / 2^j`, one per
PSD value, strictly decreasing for `fs > 0`. -/
theorem C55_frequencies {pywt : WaveletLookup} {sig : Arr R} {fs : ℝ} {n : ℕ} {j2 : Option ℝ} {s : PSD R}
    (h : waveletEstimation pywt sig fs n j2 = .ok s) :
    s.freq.length = s.psd.length ∧ (∀ i < s.psd.length, s.freq[i]? = some (scale2freq ((i : ℝ) + 1) fs)) ∧
    (0 < fs → s.freq.Pairwise (· > ·)) := by
  obtain ⟨wt, w, -, -, hpsd, hfreq⟩ := we_inv h
  refine ⟨by rw [hpsd, hfreq]; simp, ?_, ?_⟩
  · intro i hi
    rw [hpsd, List.length_map] at hi
    rw [hfreq, List.getElem?_map, List.getElem?_range hi]
    simp only [Option.map_some, scale2freq]
    congr 1
    rw [Real.rpow_neg (by norm_num), show ((i : ℝ) + 1) = ((i + 1 : ℕ) : ℝ) by push_cast; ring, Real.rpow_natCast]
    rfl
  · intro hfs
    rw [hfreq, List.pairwise_map]
    refine List.Pairwise.imp ?_ (List.pairwise_lt_range)
    intro a b hab
    apply div_lt_div_of_pos_left (by positivity) (by positivity)
    exact pow_lt_pow_right₀ (by norm_num) (by omega)

theorem interior_card {N : ℕ} {x : Fin R → ℤ → ℝ} {p : PExp} {wt : Wavelet} (hwt : wt.Valid) {j1 : ℤ} {j2 : Option ℝ}
    {g nm : ℝ} {weighted : Bool} {w : WT R} (hR : R ≠ 0)
    (h : waveletAnalysis (sampled N x) p wt j1 j2 g nm weighted = .ok w) {j : ℕ} (hj : 1 ≤ j)
    (hjl : j ≤ w.wt_coefs.values.length) : 3 ≤ (interior N wt.dec_hi.length j).card := by
  obtain ⟨ml, K, Kc, h1, hK, hKc, hKc', h3, hc, hgood, hj2, hl⟩ := wa_inv h
  rw [sampled_length] at h1
  have hlen : w.wt_coefs.values.length = Kc := by rw [hc]; simp [scalesUpTo]
  have hg := hgood j hj (by omega)
  have hroom : ∀ i < j, 2 * (wt.dec_hi.length + 1) ≤ N / 2 ^ i := fun i hi => level_room h1 (by omega)
  rw [tooFew_coef_iff wt hwt g nm x hj hroom hR, not_lt,
    ← count_coef wt hwt g nm x ⟨0, Nat.pos_of_ne_zero hR⟩ hj (fun i hi => by have := hroom i hi; omega)
      (by have := hroom (j - 1) (by omega); omega)] at hg
  rw [col_range, coefSeq_length _ _ _ hj, sampled_length, countNotNaN_countP, List.countP_map, countP_range_card] at hg
  refine hg.trans (Finset.card_le_card ?_)
  intro k hk
  rw [Finset.mem_filter] at hk
  rw [interior_eq _ _ _ hwt.pos, Finset.mem_filter]
  refine ⟨hk.1, ?_⟩
  have := coef_nan_iff wt hwt g nm x ⟨0, Nat.pos_of_ne_zero hR⟩ hj hroom (Finset.mem_range.mp hk.1)
  intro hb
  have h2 := hk.2
  simp only [Function.comp, this.mpr hb] at h2
  simp at h2

/-- C55: for a finite signal, the PSD at scale `j` is the mean of the squares of the ideal wavelet coefficients over the
positions that do not touch the borders (there are at least three): no normalisation factor is left, because
`normalization=1` and `gamint=1/2` cancel. -/
theorem C55_value {N : ℕ} {x : Fin R → ℤ → ℝ} (hR : R ≠ 0) {pywt : WaveletLookup} {fs : ℝ} {n : ℕ} {j2 : Option ℝ} {wt : Wavelet}
    (hdb : pywt ("db" ++ toString n) = .ok wt) (hwt : wt.Valid) {s : PSD R}
    (h : waveletEstimation pywt (sampled N x) fs n j2 = .ok s) {j : ℕ} (hj : 1 ≤ j) (hjl : j ≤ s.psd.length) :
    3 ≤ (interior N wt.dec_hi.length j).card ∧
    ∃ row, s.psd[j - 1]? = some row ∧ ∀ r, row r = Fl.fin
      ((∑ k ∈ interior N wt.dec_hi.length j, idealDetail wt (x r) j k ^ 2) / (interior N wt.dec_hi.length j).card) := by
  obtain ⟨wt', w, hp, hw, hpsd, -⟩ := we_inv h
  rw [hdb] at hp; cases hp
  have hcard := interior_card hwt hR hw hj (by rw [hpsd, List.length_map] at hjl; exact hjl)
  refine ⟨hcard, ?_⟩
  obtain ⟨ml, K, Kc, h1, hK, hKc, hKc', h3, hc, hgood, hj2, hl⟩ := wa_inv hw
  rw [sampled_length] at h1
  have hlen : w.wt_coefs.values.length = Kc := by rw [hc]; simp [scalesUpTo]
  rw [hpsd, List.length_map, hlen] at hjl
  refine ⟨meanSquare (coefSeq (wparams wt (1/2) 1) (sampled N x) j), ?_, fun r => ?_⟩
  · rw [hpsd, hc]
    simp only [scalesUpTo, List.map_map, List.getElem?_map, List.getElem?_range (show j - 1 < Kc by omega),
      Option.map_some, Function.comp, Nat.sub_add_cancel hj]
  · rw [meanSquare, red, col_mapArr, col_range, coefSeq_length _ _ _ hj, sampled_length, List.map_map]
    have e : (List.range (N / 2 ^ j)).map ((fun x => x * x) ∘ fun k => ent (coefSeq (wparams wt (1/2) 1) (sampled N x) j) k r)
        = (List.range (N / 2 ^ j)).map fun k => if Bord N wt.dec_hi.length j k then Fl.nan
            else Fl.fin (idealDetail wt (x r) j k ^ 2) := by
      apply List.map_congr_left
      intro k hk
      simp only [Function.comp]
      rw [coef_ent wt hwt _ _ x r hj (fun i hi => by have := level_room h1 (i := i) (by omega); omega)
        (List.mem_range.mp hk), scaleFactor_eq]
      by_cases hb : Bord N wt.dec_hi.length j k
      · rw [if_pos hb]
        rw [if_pos (show 2 * k + 1 < wt.dec_hi.length - 1 ∨ N / 2 ^ (j - 1) < 2 * k + 1 + wt.dec_hi.length from hb)]; rfl
      · rw [if_neg hb]
        rw [if_neg (show ¬ (2 * k + 1 < wt.dec_hi.length - 1 ∨ N / 2 ^ (j - 1) < 2 * k + 1 + wt.dec_hi.length) from hb),
          Fl.fin_mul]
        congr 1
        rw [show (1 / 2 - 1 / 1 + 1 / 2 : ℝ) = 0 by norm_num]
        simp; ring
    rw [e, nanmean_ite, ← interior_eq _ _ _ hwt.pos]
    rw [← interior_eq _ _ _ hwt.pos]
    exact Finset.card_pos.mp (by omega)

/-- C55: every PSD value of a finite signal is a non-negative real. -/
theorem C55_nonneg {N : ℕ} {x : Fin R → ℤ → ℝ} {pywt : WaveletLookup} {fs : ℝ} {n : ℕ} {j2 : Option ℝ} {wt : Wavelet}
    (hdb : pywt ("db" ++ toString n) = .ok wt) (hwt : wt.Valid) {s : PSD R}
    (h : waveletEstimation pywt (sampled N x) fs n j2 = .ok s) (row : Row R) (hrow : row ∈ s.psd) (r : Fin R) :
    ∃ v : ℝ, 0 ≤ v ∧ row r = Fl.fin v := by
  have hR : R ≠ 0 := fun h0 => by subst h0; exact r.elim0
  obtain ⟨i, hi, rfl⟩ := List.mem_iff_getElem.mp hrow
  obtain ⟨-, row, h1, h2⟩ := C55_value hR hdb hwt h (j := i + 1) (by omega) (by omega)
  rw [Nat.add_sub_cancel, List.getElem?_eq_getElem hi] at h1
  cases h1
  exact ⟨_, by positivity, h2 r⟩

/-- The wavelet PSD is computed whenever the wavelet exists (finite or not, any non-empty signal). -/
theorem we_total (pywt : WaveletLookup) (sig : Arr R) (hR : R ≠ 0) (hN : sig ≠ []) (fs : ℝ) (n : ℕ) (j2 : Option ℝ) {wt : Wavelet}
    (hdb : pywt ("db" ++ toString n) = .ok wt) : ∃ s, waveletEstimation pywt sig fs n j2 = .ok s := by
  obtain ⟨w, hw⟩ := C05_total sig .none (Or.inl rfl) wt 1 j2 (1/2) 1 false hR hN (by norm_num)
  unfold waveletEstimation
  simp only [hdb, hw]
  exact ⟨_, rfl⟩

theorem sampled_ne_nil {N : ℕ} (hN : N ≠ 0) (x : Fin R → ℤ → ℝ) : sampled N x ≠ [] := by
  intro h; apply hN; simpa [sampled] using h

theorem we_nonempty {pywt : WaveletLookup} {N : ℕ} {x : Fin R → ℤ → ℝ} {fs : ℝ} {n : ℕ} {j2 : Option ℝ} {s : PSD R}
    (h : waveletEstimation pywt (sampled N x) fs n j2 = .ok s) : N ≠ 0 := by
  obtain ⟨wt, w, -, hw, -⟩ := we_inv h
  obtain ⟨ml, K, Kc, h1, -⟩ := wa_inv hw
  rw [sampled_length] at h1
  exact maxLevel_nonzero h1

/-- C55: multiplying the signal by `a` multiplies the PSD by `a²` and keeps the frequencies. -/
theorem C55_scaling {N : ℕ} {x : Fin R → ℤ → ℝ} (hR : R ≠ 0) {pywt : WaveletLookup} {fs : ℝ} {n : ℕ} {j2 : Option ℝ} {wt : Wavelet}
    (hdb : pywt ("db" ++ toString n) = .ok wt) (hwt : wt.Valid) (a : ℝ) {s : PSD R}
    (h : waveletEstimation pywt (sampled N x) fs n j2 = .ok s) :
    waveletEstimation pywt (sampled N fun r t => a * x r t) fs n j2
      = .ok { freq := s.freq, psd := mapArr (fun v => Fl.fin (a ^ 2) * v) s.psd } := by
  obtain ⟨s', h'⟩ := we_total pywt (sampled N fun r t => a * x r t) hR (sampled_ne_nil (we_nonempty h) _) fs n j2 hdb
  rw [h']
  have hlen : s'.psd.length = s.psd.length := by
    obtain ⟨wt1, w, hp, hw, hpsd, -⟩ := we_inv h
    obtain ⟨wt2, w', hp', hw', hpsd', -⟩ := we_inv h'
    rw [hdb] at hp hp'; cases hp; cases hp'
    have := (C07_data_independent hR hR hwt hwt rfl hw hw').2.2.1
    rw [hpsd, hpsd', List.length_map, List.length_map]
    have := congrArg List.length this
    simpa [Dict.keys] using this.symm
  have hf : s'.freq = s.freq := by
    obtain ⟨-, w, -, -, hpsd, hfr⟩ := we_inv h
    obtain ⟨-, w', -, -, hpsd', hfr'⟩ := we_inv h'
    rw [hpsd, hpsd', List.length_map, List.length_map] at hlen
    rw [hfr, hfr', hlen]
  have hpsd : s'.psd = mapArr (fun v => Fl.fin (a ^ 2) * v) s.psd := by
    apply List.ext_getElem (by rw [mapArr_length, hlen])
    intro i hi _
    obtain ⟨-, row', h1', h2'⟩ := C55_value hR hdb hwt h' (j := i + 1) (by omega) (by omega)
    obtain ⟨-, row, h1, h2⟩ := C55_value hR hdb hwt h (j := i + 1) (by omega) (by omega)
    rw [Nat.add_sub_cancel, List.getElem?_eq_getElem hi] at h1'
    rw [Nat.add_sub_cancel, List.getElem?_eq_getElem (by omega)] at h1
    cases h1'; cases h1
    funext r
    have e : (mapArr (fun v => Fl.fin (a ^ 2) * v) s.psd)[i] r = Fl.fin (a ^ 2) * s.psd[i] r := by
      exact mapArr_getElem _ _ _ _ _ _
    rw [e, h2, h2', Fl.fin_mul]
    congr 1
    rw [← mul_div_assoc, Finset.mul_sum]
    congr 1
    apply Finset.sum_congr rfl
    intro k _
    have := idealDetail_linear wt a 0 (x r) (x r) (i + 1) k
    simp only [zero_mul, add_zero] at this
    rw [this]; ring
  cases s'
  simp only at hf hpsd
  rw [hf, hpsd]

/-- C55: adding to each realisation a polynomial trend of degree less than the number of vanishing moments (a constant in
particular) does not change the PSD. -/
theorem C55_trend {N : ℕ} (x : Fin R → ℤ → ℝ) (pywt : WaveletLookup) (fs : ℝ) (n : ℕ) (j2 : Option ℝ) (wt : Wavelet)
    (hdb : pywt ("db" ++ toString n) = .ok wt) (hwt : wt.Valid) {M : ℕ}
    (hM : VanishingMoments wt.dec_hi M) (q : Fin R → ℝ[X]) (hq : ∀ r, (q r).natDegree < M) :
    waveletEstimation pywt (sampled N fun r t => x r t + (q r).eval (t : ℝ)) fs n j2
      = waveletEstimation pywt (sampled N x) fs n j2 := by
  unfold waveletEstimation
  simp only [hdb]
  rw [C11_polynomial_trend x wt hwt hM q hq]

/-- A look-up in which `db1` is Haar: the hypotheses of C55 are met by 24 samples of `t²`, which has three scales. -/
example : ∃ (pywt : WaveletLookup) (s : PSD 1), pywt ("db" ++ toString 1) = .ok haar ∧
    waveletEstimation pywt (sampled 24 fun (_ : Fin 1) (t : ℤ) => (t : ℝ) ^ 2) 100 1 none = .ok s ∧ 2 ≤ s.psd.length := by
  obtain ⟨s, hs⟩ := we_total (fun _ => .ok haar) (sampled 24 fun (_ : Fin 1) (t : ℤ) => (t : ℝ) ^ 2) (by norm_num)
    (sampled_ne_nil (by norm_num) _) 100 1 none (wt := haar) rfl
  refine ⟨_, s, rfl, hs, ?_⟩
  obtain ⟨wt, w, hp, hw, hpsd, -⟩ := we_inv hs
  cases hp
  have hlev : decompositionLevel 24 haar = .ok ((3 : ℕ) : ℤ) :=
    (C01_integer 24 3 haar (by norm_num)).mpr (by simp [haar])
  have := C09_scales (by norm_num) haar_valid hw (by norm_num) hlev
  rw [hpsd, List.length_map, this]
  split <;> norm_num

/-! ### C56 -/

/-- C56: `welch_estimation` calls scipy with `nperseg = seg_size` (`n_fft` when None) and `nfft = max(n_fft, nperseg)`, and
multiplies the result by 4. The returned frequencies are `⌊nfft/2⌋ + 1` in number: as many as the one-sided spectrum of
length `nfft`. -/
theorem C56_call {welch : WelchFn R} {sig : Arr R} {fs : ℝ} {n_fft : ℤ} {seg_size : Option ℤ} {s : PSD R}
    (h : welchEstimation welch sig fs n_fft seg_size = .ok s) :
    ∃ (seg nfft : ℤ) (a : Arr R), (seg_size = none → seg = n_fft) ∧ (∀ k, seg_size = some k → seg = k) ∧
      nfft = max n_fft seg ∧ seg ≤ nfft ∧ welch sig seg ((seg : ℝ) / 2) nfft = .ok a ∧
      s.psd = mapArr (fun v => v * Fl.fin 4) a ∧ (s.freq.length : ℤ) = nfft / 2 + 1 := by
  unfold welchEstimation at h
  simp only at h
  cases hf : welchFreq fs (welchSizes n_fft seg_size).1 with
  | error e => simp only [hf] at h; cases h
  | ok freq =>
    simp only [hf] at h
    cases hw : welch sig (welchSizes n_fft seg_size).2 (((welchSizes n_fft seg_size).2 : ℝ) / 2) (welchSizes n_fft seg_size).1 with
    | error e => simp only [hw] at h; cases h
    | ok a =>
      simp only [hw] at h
      cases h
      have hmax : (welchSizes n_fft seg_size).1 = max n_fft (welchSizes n_fft seg_size).2 := by
        simp only [welchSizes]
        split
        · rw [max_eq_right (by omega)]
        · rw [max_eq_left (by omega)]
      refine ⟨_, _, a, ?_, ?_, hmax, ?_, hw, rfl, ?_⟩
      · rintro rfl; rfl
      · rintro k rfl; rfl
      · rw [hmax]; exact le_max_right _ _
      · unfold welchFreq at hf
        split at hf
        · cases hf
        · cases hf
          simp [linspace]
          omega

/-- C56: the frequency grid of a call with `nfft ≥ 2`: point `k` is `k fs / (2 ⌊nfft/2⌋)`. -/
theorem C56_grid_points (fs : ℝ) (nfft : ℤ) (h : 2 ≤ nfft) :
    ∃ freq, welchFreq fs nfft = .ok freq ∧ (freq.length : ℤ) = nfft / 2 + 1 ∧
      ∀ k : ℕ, (k : ℤ) ≤ nfft / 2 → freq[k]? = some (k * fs / ((2 * (nfft / 2) : ℤ) : ℝ)) := by
  unfold welchFreq
  rw [if_neg (by omega)]
  refine ⟨_, rfl, by simp [linspace]; omega, fun k hk => ?_⟩
  obtain ⟨m, hm⟩ : ∃ m : ℕ, nfft / 2 = m := ⟨(nfft / 2).toNat, by omega⟩
  have hm1 : 1 ≤ m := by omega
  rw [hm] at hk ⊢
  have e : ((m : ℤ) + 1).toNat = m + 1 := by omega
  rw [e, linspace, List.getElem?_map, List.getElem?_map, List.getElem?_range (by omega)]
  simp only [Option.map_some, if_neg (show ¬ m + 1 = 1 by omega)]
  congr 1
  push_cast
  have : (m : ℝ) ≠ 0 := by exact_mod_cast (by omega : m ≠ 0)
  rw [show ((m : ℝ) + 1 - 1) = m by ring]
  field_simp
  ring

/-- C56: with `nfft ≥ 2` and `fs ≠ 0` the grid is the one of the FFT, `k fs / nfft`, exactly when `nfft` is even; when it
is odd every non-zero frequency is wrong. -/
theorem C56_grid_iff_even (fs : ℝ) (hfs : fs ≠ 0) (nfft : ℤ) (h : 2 ≤ nfft) (freq : List ℝ)
    (hf : welchFreq fs nfft = .ok freq) :
    ((∀ k : ℕ, (k : ℤ) ≤ nfft / 2 → freq[k]? = some (k * fs / (nfft : ℝ))) ↔ Even nfft) ∧
    (Odd nfft → ∀ k : ℕ, 1 ≤ k → (k : ℤ) ≤ nfft / 2 → freq[k]? ≠ some (k * fs / (nfft : ℝ))) := by
  obtain ⟨freq', hf', -, hpt⟩ := C56_grid_points fs nfft h
  rw [hf] at hf'; cases hf'
  have hodd : ∀ k : ℕ, 1 ≤ k → (k : ℤ) ≤ nfft / 2 → Odd nfft → freq[k]? ≠ some (k * fs / (nfft : ℝ)) := by
    intro k hk1 hk hod hc
    rw [hpt k hk] at hc
    have h1 : ((2 * (nfft / 2) : ℤ) : ℝ) = (nfft : ℝ) - 1 := by
      obtain ⟨m, rfl⟩ := hod
      rw [show (2 * m + 1) / 2 = m by omega]; push_cast; ring
    rw [h1] at hc
    have hn : (2:ℝ) ≤ nfft := by exact_mod_cast h
    have hkf : (k : ℝ) * fs ≠ 0 := mul_ne_zero (by exact_mod_cast (by omega : k ≠ 0)) hfs
    have := Option.some.inj hc
    rw [div_eq_div_iff (by linarith) (by linarith)] at this
    have := mul_left_cancel₀ hkf this
    linarith
  refine ⟨⟨fun hall => ?_, fun hev k hk => ?_⟩, fun hod k hk1 hk => hodd k hk1 hk hod⟩
  · by_contra hne
    rw [Int.not_even_iff_odd] at hne
    exact hodd 1 le_rfl (by push_cast; omega) hne (hall 1 (by push_cast; omega))
  · rw [hpt k hk]
    obtain ⟨m, rfl⟩ := hev
    rw [show 2 * ((m + m) / 2) = m + m by omega]

/-- The default size 4096 is even, and a segment longer than an (even) FFT imposes its own, possibly odd, length. -/
example : Even (4096 : ℤ) ∧ welchSizes 4096 (some 4097) = (4097, 4097) ∧ Odd (4097 : ℤ) := by
  refine ⟨⟨2048, by norm_num⟩, by simp [welchSizes], ⟨2048, by norm_num⟩⟩

/-! ### C57 -/

/-- The logarithm selected by its name. -/
def IsLog (log : String) (L : ℝ → ℝ) : Prop := log = "log2" ∧ L = Real.logb 2 ∨ log = "log" ∧ L = Real.log

theorem IsLog.fn {log : String} {L : ℝ → ℝ} (h : IsLog log L) : logFunction log = .ok (Fl.logOf L) := by
  rcases h with ⟨rfl, rfl⟩ | ⟨rfl, rfl⟩ <;> simp [logFunction, Fl.log2, Fl.ln]

theorem IsLog.mul {log : String} {L : ℝ → ℝ} (h : IsLog log L) {a b : ℝ} (ha : 0 < a) (hb : 0 < b) : L (a * b) = L a + L b := by
  rcases h with ⟨-, rfl⟩ | ⟨-, rfl⟩
  · exact Real.logb_mul ha.ne' hb.ne'
  · exact Real.log_mul ha.ne' hb.ne'

theorem IsLog.rpow {log : String} {L : ℝ → ℝ} (h : IsLog log L) {a : ℝ} (ha : 0 < a) (e : ℝ) : L (a ^ e) = e * L a := by
  rcases h with ⟨-, rfl⟩ | ⟨-, rfl⟩
  · exact Real.logb_rpow_eq_mul_logb_of_pos ha
  · exact Real.log_rpow ha e

theorem IsLog.inj {log : String} {L : ℝ → ℝ} (h : IsLog log L) {a b : ℝ} (ha : 0 < a) (hb : 0 < b) (he : L a = L b) : a = b := by
  rcases h with ⟨-, rfl⟩ | ⟨-, rfl⟩
  · exact Real.logb_injOn_pos (by norm_num) ha hb he
  · exact Real.log_injOn_pos ha hb he

theorem logOf_fin {L : ℝ → ℝ} {a : ℝ} (ha : 0 < a) : Fl.logOf L (Fl.fin a) = Fl.fin (L a) := by simp [Fl.logOf, ha]

theorem logOf_isFinite {L : ℝ → ℝ} {x : Fl} (h : (Fl.logOf L x).isFinite = true) : ∃ a, 0 < a ∧ x = Fl.fin a := by
  cases x with
  | nan => cases h
  | pinf => cases h
  | ninf => cases h
  | fin a =>
    by_cases ha : 0 < a
    · exact ⟨a, ha, rfl⟩
    · exfalso
      simp only [Fl.logOf, if_neg ha] at h
      split at h <;> cases h

theorem sum_zero_of_nonneg : ∀ {l : List ℝ}, (∀ a ∈ l, 0 ≤ a) → l.sum = 0 → ∀ a ∈ l, a = 0
  | [], _, _ => by simp
  | b :: l, h, hs => by
    rw [List.sum_cons] at hs
    have hb := h b (by simp)
    have hl : 0 ≤ l.sum := List.sum_nonneg fun a ha => h a (by simp [ha])
    intro a ha
    rcases List.mem_cons.mp ha with rfl | ha
    · linarith
    · exact sum_zero_of_nonneg (fun a ha => h a (by simp [ha])) (by linarith) a ha

theorem sum_map_affine (x : List ℝ) (a c : ℝ) : (x.map fun t => a * t + c).sum = a * x.sum + x.length * c := by
  induction x with
  | nil => simp
  | cons t x ih => simp only [List.map_cons, List.sum_cons, ih, List.length_cons]; push_cast; ring

/-- On exactly affine data with two distinct abscissae the fit returns the line. -/
theorem skFit_affine {x : List ℝ} {a c : ℝ} (h : ∃ s ∈ x, ∃ t ∈ x, s ≠ t) :
    skSlope x (x.map fun t => a * t + c) = a ∧ skIntercept x (x.map fun t => a * t + c) = c := by
  have hne : (x.length : ℝ) ≠ 0 := by
    obtain ⟨s, hs, -⟩ := h
    have : x.length ≠ 0 := fun h0 => by rw [List.length_eq_zero_iff.mp h0] at hs; cases hs
    exact_mod_cast this
  have hslope : skSlope x (x.map fun t => a * t + c) = a := by
    simp only [skSlope]
    rw [sum_map_affine]
    set mx := x.sum / x.length with hmx
    have hmy : (a * x.sum + x.length * c) / x.length = a * mx + c := by rw [hmx]; field_simp
    rw [hmy]
    have hsxx : (x.map fun t => (t - mx) * (t - mx)).sum ≠ 0 := by
      intro h0
      have hz : ∀ t ∈ x, t = mx := by
        intro t ht
        have := sum_zero_of_nonneg (by
          intro b hb
          obtain ⟨u, -, rfl⟩ := List.mem_map.mp hb
          exact mul_self_nonneg _) h0 _ (List.mem_map.mpr ⟨t, ht, rfl⟩)
        have := mul_self_eq_zero.mp this
        linarith
      obtain ⟨s, hs, t, ht, hst⟩ := h
      exact hst ((hz s hs).trans (hz t ht).symm)
    rw [if_neg hsxx]
    have : (List.zipWith (fun t u => (t - mx) * (u - (a * mx + c))) x (x.map fun t => a * t + c)).sum
        = a * (x.map fun t => (t - mx) * (t - mx)).sum := by
      rw [List.zipWith_map_right, List.zipWith_self, ← List.sum_map_mul_left]
      congr 1
      apply List.map_congr_left
      intro t _; ring
    rw [this, mul_div_assoc, div_self hsxx, mul_one]
  refine ⟨hslope, ?_⟩
  rw [skIntercept, hslope, sum_map_affine]
  field_simp
  ring

/-- The points of a PSD inside the closed band. -/
def inBand (band : ℝ × ℝ) (p : ℝ × Row R) : Prop := band.1 ≤ p.1 ∧ p.1 ≤ band.2

theorem filter_ne_zero {l : List (ℝ × Row R)} (h0 : ¬ ∃ p ∈ l, p.1 = 0) :
    ((l.map Prod.fst).zip (l.map Prod.snd)).filter (fun p => decide (p.1 ≠ 0)) = l := by
  rw [List.zip_map', List.map_id']
  · rw [List.filter_eq_self]
    intro p hp
    simp only [ne_eq, decide_eq_true_eq]
    exact fun h => h0 ⟨p, hp, h⟩

/-- `estimate_beta` on a band without the frequency 0, with a valid logarithm. -/
theorem estimateBeta_eq {freq : List ℝ} {psd : Arr (R + 1)} {band : ℝ × ℝ} {log : String} {L : ℝ → ℝ} (hlog : IsLog log L)
    (hlen : freq.length = psd.length)
    (h0 : ¬ ∃ p ∈ (freq.zip psd).filter (fun p => decide (band.1 ≤ p.1 ∧ p.1 ≤ band.2)), p.1 = 0) :
    estimateBeta freq psd band log =
      match skFit (((freq.zip psd).filter (fun p => decide (band.1 ≤ p.1 ∧ p.1 ≤ band.2))).map fun p => Fl.logOf L (Fl.fin p.1))
        (mapArr (Fl.logOf L) (((freq.zip psd).filter (fun p => decide (band.1 ≤ p.1 ∧ p.1 ≤ band.2))).map Prod.snd)) with
      | .error e => .error e
      | .ok (coef, inter) => .ok { beta := coef 0, log_C := inter
                                   freq := ((freq.zip psd).filter (fun p => decide (band.1 ≤ p.1 ∧ p.1 ≤ band.2))).map
                                     fun p => Fl.logOf L (Fl.fin p.1) } := by
  unfold estimateBeta
  simp only
  rw [if_neg (not_not.mpr hlen), if_neg h0]
  unfold logPsd
  rw [hlog.fn]
  simp only
  rw [filter_ne_zero h0]
  rfl

/-- C57: if the PSD follows the power law `C f^(-b)` at the frequencies of the closed band, which is made of positive
frequencies and contains at least two different ones, then `estimate_beta` returns `beta = -b` (the opposite of the
exponent in the documented law `PSD(f) = C |f|^(-beta)`) and `log_C = log C`, for both logarithms.  With several
realisations `beta` is that of the first one. -/
theorem C57_power_law {freq : List ℝ} {psd : Arr (R + 1)} {band : ℝ × ℝ} {log : String} {L : ℝ → ℝ} (hlog : IsLog log L)
    (hlen : freq.length = psd.length) (hb : 0 < band.1) (C b : Fin (R + 1) → ℝ) (hC : ∀ r, 0 < C r)
    (hpsd : ∀ (i : ℕ) (f : ℝ) (row : Row (R + 1)), freq[i]? = some f → psd[i]? = some row → band.1 ≤ f → f ≤ band.2 →
      ∀ r, row r = Fl.fin (C r * f ^ (-b r)))
    (h2 : ∃ f ∈ freq, ∃ g ∈ freq, f ≠ g ∧ band.1 ≤ f ∧ f ≤ band.2 ∧ band.1 ≤ g ∧ g ≤ band.2) :
    ∃ v, estimateBeta freq psd band log = .ok v ∧ v.beta = -(b 0) ∧ ∀ r, v.log_C r = L (C r) := by
  set kept := (freq.zip psd).filter (fun p => decide (band.1 ≤ p.1 ∧ p.1 ≤ band.2)) with hk
  have hmem : ∀ p ∈ kept, 0 < p.1 ∧ ∀ r, p.2 r = Fl.fin (C r * p.1 ^ (-b r)) := by
    intro p hp
    rw [hk, List.mem_filter] at hp
    obtain ⟨hz, hd⟩ := hp
    have hd := of_decide_eq_true hd
    refine ⟨lt_of_lt_of_le hb hd.1, ?_⟩
    obtain ⟨i, hi⟩ := List.mem_iff_getElem?.mp hz
    obtain ⟨h1, h2⟩ := List.getElem?_zip_eq_some.mp hi
    exact hpsd i p.1 p.2 h1 h2 hd.1 hd.2
  have h0 : ¬ ∃ p ∈ kept, p.1 = 0 := fun ⟨p, hp, h⟩ => (hmem p hp).1.ne' h
  rw [estimateBeta_eq hlog hlen h0, ← hk]
  have hfr : ∀ f ∈ freq, band.1 ≤ f → f ≤ band.2 → ∃ p ∈ kept, p.1 = f := by
    intro f hf h1 h2
    obtain ⟨i, hi, rfl⟩ := List.mem_iff_getElem.mp hf
    refine ⟨(freq[i], psd[i]), ?_, rfl⟩
    rw [hk, List.mem_filter]
    refine ⟨?_, decide_eq_true ⟨h1, h2⟩⟩
    exact List.mem_iff_getElem.mpr ⟨i, by rw [List.length_zip, ← hlen]; simpa using hi, by simp⟩
  have hx : (kept.map fun p => Fl.logOf L (Fl.fin p.1)) = (kept.map fun p => L p.1).map Fl.fin := by
    rw [List.map_map]
    apply List.map_congr_left
    intro p hp
    simp only [Function.comp]
    rw [logOf_fin (hmem p hp).1]
  have hy : ∀ r, col (mapArr (Fl.logOf L) (kept.map Prod.snd)) r
      = ((kept.map fun p => L p.1).map fun t => -b r * t + L (C r)).map Fl.fin := by
    intro r
    rw [col_mapArr]
    simp only [col, List.map_map]
    apply List.map_congr_left
    intro p hp
    simp only [Function.comp]
    have hp' := hmem p hp
    rw [hp'.2 r, logOf_fin (mul_pos (hC r) (Real.rpow_pos_of_pos hp'.1 _)),
      hlog.mul (hC r) (Real.rpow_pos_of_pos hp'.1 _), hlog.rpow hp'.1, add_comm]
  have hdist : ∃ s ∈ kept.map (fun p => L p.1), ∃ t ∈ kept.map (fun p => L p.1), s ≠ t := by
    obtain ⟨f, hf, g, hg, hfg, a1, a2, a3, a4⟩ := h2
    obtain ⟨p, hp, rfl⟩ := hfr f hf a1 a2
    obtain ⟨p', hp', rfl⟩ := hfr g hg a3 a4
    exact ⟨_, List.mem_map.mpr ⟨p, hp, rfl⟩, _, List.mem_map.mpr ⟨p', hp', rfl⟩,
      fun h => hfg (hlog.inj (hmem p hp).1 (hmem p' hp').1 h)⟩
  have hne : (kept.map fun p => Fl.logOf L (Fl.fin p.1)) ≠ [] := by
    obtain ⟨s, hs, -⟩ := hdist
    rw [hx]
    intro h
    rw [List.map_eq_nil_iff] at h
    rw [h] at hs; cases hs
  have htr : ∀ l : List ℝ, (l.map Fl.fin).map Fl.toReal = l := by
    intro l; rw [List.map_map]; exact List.map_id' l
  unfold skFit
  rw [if_neg hne, if_neg]
  · refine ⟨_, rfl, ?_, fun r => ?_⟩
    · simp only [hx, hy, htr]
      exact (skFit_affine hdist).1
    · simp only [hx, hy, htr]
      exact (skFit_affine hdist).2
  · rintro (h | ⟨row, hrow, r, h⟩)
    · rw [hx] at h
      have : ((kept.map fun p => L p.1).map Fl.fin).all Fl.isFinite = true := by
        rw [List.all_eq_true]
        intro y hy'
        obtain ⟨t, -, rfl⟩ := List.mem_map.mp hy'
        rfl
      rw [this] at h; cases h
    · have : row r ∈ col (mapArr (Fl.logOf L) (kept.map Prod.snd)) r := List.mem_map.mpr ⟨row, hrow, rfl⟩
      rw [hy r] at this
      obtain ⟨t, -, ht⟩ := List.mem_map.mp this
      rw [← ht] at h; cases h

/-- The hypotheses of C57 on a concrete PSD `3 / f²` at the frequencies 8, 4, 2, 1, band `[2, 8]`; outside the band
anything goes. -/
example : ∃ v : FractalValues 0, estimateBeta [8, 4, 2, 1] [fun _ => Fl.fin (3/64), fun _ => Fl.fin (3/16),
    fun _ => Fl.fin (3/4), fun _ => Fl.nan] (2, 8) "log2" = .ok v ∧ v.beta = -2 ∧ v.log_C 0 = Real.logb 2 3 := by
  obtain ⟨v, h1, h2, h3⟩ := C57_power_law (R := 0) (freq := [8, 4, 2, 1]) (psd := [fun _ => Fl.fin (3/64),
    fun _ => Fl.fin (3/16), fun _ => Fl.fin (3/4), fun _ => Fl.nan]) (band := (2, 8)) (log := "log2") (Or.inl ⟨rfl, rfl⟩)
    rfl (by norm_num) (fun _ => 3) (fun _ => 2) (by norm_num) (by
      have e : ∀ f : ℝ, f ^ (-2:ℝ) = (f ^ 2)⁻¹ := fun f => by
        rw [show (-2:ℝ) = ((-2:ℤ) : ℝ) by norm_num, Real.rpow_intCast]; rfl
      intro i f row hf hrow h1 h2 r
      match i with
      | 0 => simp at hf hrow; subst hf hrow; rw [e]; norm_num
      | 1 => simp at hf hrow; subst hf hrow; rw [e]; norm_num
      | 2 => simp at hf hrow; subst hf hrow; rw [e]; norm_num
      | 3 => simp at hf; subst hf; norm_num at h1
      | i + 4 => simp at hf)
    ⟨8, by simp, 4, by simp, by norm_num⟩
  exact ⟨v, h1, h2, h3 0⟩

/-- C57: only the points of the closed band matter. -/
theorem C57_band_only {freq freq' : List ℝ} {psd psd' : Arr (R + 1)} {band : ℝ × ℝ} (log : String)
    (hlen : freq.length = psd.length) (hlen' : freq'.length = psd'.length)
    (h : (freq.zip psd).filter (fun p => decide (band.1 ≤ p.1 ∧ p.1 ≤ band.2))
      = (freq'.zip psd').filter (fun p => decide (band.1 ≤ p.1 ∧ p.1 ≤ band.2))) :
    estimateBeta freq psd band log = estimateBeta freq' psd' band log := by
  unfold estimateBeta
  simp only [h, hlen, hlen', ne_eq, not_true, if_false]

/-- C57: an empty band raises ValueError (KeyError if the logarithm is unknown). -/
theorem C57_empty_band {freq : List ℝ} {psd : Arr (R + 1)} {band : ℝ × ℝ} (log : String)
    (hlen : freq.length = psd.length) (h : ∀ f ∈ freq, ¬ (band.1 ≤ f ∧ f ≤ band.2)) :
    estimateBeta freq psd band log
      = .error (if log = "log2" ∨ log = "log" then .valueError else .keyError) := by
  have hk : (freq.zip psd).filter (fun p => decide (band.1 ≤ p.1 ∧ p.1 ≤ band.2)) = [] := by
    rw [List.filter_eq_nil_iff]
    intro p hp hd
    exact h p.1 (List.of_mem_zip hp).1 (of_decide_eq_true hd)
  by_cases hl : log = "log2" ∨ log = "log"
  · rw [if_pos hl]
    obtain ⟨L, hL⟩ : ∃ L, IsLog log L := by
      rcases hl with rfl | rfl
      · exact ⟨_, Or.inl ⟨rfl, rfl⟩⟩
      · exact ⟨_, Or.inr ⟨rfl, rfl⟩⟩
    rw [estimateBeta_eq hL hlen (by rw [hk]; simp)]
    rw [hk]
    simp [skFit]
  · rw [if_neg hl]
    push Not at hl
    unfold estimateBeta
    simp only [hk]
    simp [hlen, logPsd, logFunction, hl.1, hl.2]

/-- C57: a zero frequency inside the band is not dropped, it makes the call fail: `_log_psd` was written for 1-D
frequencies. -/
theorem C57_zero_frequency {freq : List ℝ} {psd : Arr (R + 1)} {band : ℝ × ℝ} (log : String) (h0 : (0:ℝ) ∈ freq)
    (hb : band.1 ≤ 0 ∧ 0 ≤ band.2) : ∃ e, estimateBeta freq psd band log = .error e := by
  unfold estimateBeta
  simp only
  by_cases hlen : freq.length = psd.length
  · rw [if_neg (not_not.mpr hlen), if_pos]
    · split
      · exact ⟨_, rfl⟩
      · cases logFunction log <;> exact ⟨_, rfl⟩
    · obtain ⟨i, hi, hi0⟩ := List.mem_iff_getElem.mp h0
      refine ⟨(freq[i], psd[i]), ?_, hi0⟩
      rw [List.mem_filter]
      refine ⟨List.mem_iff_getElem.mpr ⟨i, by rw [List.length_zip, ← hlen]; simpa using hi, by simp⟩, ?_⟩
      rw [hi0]; exact decide_eq_true hb
  · rw [if_pos hlen]; exact ⟨_, rfl⟩

theorem sum_map_add_const (y : List ℝ) (k : ℝ) : (y.map fun t => t + k).sum = y.sum + y.length * k := by
  have := sum_map_affine y 1 k
  simpa using this

/-- Adding a constant to the ordinates moves the intercept only. -/
theorem skFit_shift (x y : List ℝ) (k : ℝ) (hlen : y.length = x.length) (hne : x ≠ []) :
    skSlope x (y.map fun t => t + k) = skSlope x y ∧ skIntercept x (y.map fun t => t + k) = skIntercept x y + k := by
  have hn : (x.length : ℝ) ≠ 0 := by
    have : x.length ≠ 0 := fun h => hne (List.length_eq_zero_iff.mp h)
    exact_mod_cast this
  have hs : skSlope x (y.map fun t => t + k) = skSlope x y := by
    simp only [skSlope]
    rw [sum_map_add_const, hlen]
    congr 3
    rw [List.zipWith_map_right]
    congr 1
    funext t u
    field_simp
    ring
  refine ⟨hs, ?_⟩
  rw [skIntercept, hs, sum_map_add_const, hlen, skIntercept]
  field_simp
  ring

theorem zip_mapArr (f : Fl → Fl) : ∀ (freq : List ℝ) (psd : Arr R),
    freq.zip (mapArr f psd) = (freq.zip psd).map fun p => (p.1, fun r => f (p.2 r))
  | [], _ => by simp
  | _ :: _, [] => by simp [mapArr]
  | a :: freq, row :: psd => by
    have := zip_mapArr f freq psd
    simp only [mapArr, List.map_cons, List.zip_cons_cons] at this ⊢
    rw [this]

/-- C57: multiplying the PSD by `c > 0` leaves `beta` unchanged and adds `log c` to `log_C`. -/
theorem C57_psd_scale {freq : List ℝ} {psd : Arr (R + 1)} {band : ℝ × ℝ} {log : String} {L : ℝ → ℝ} (hlog : IsLog log L)
    {c : ℝ} (hc : 0 < c) {v : FractalValues R} (h : estimateBeta freq psd band log = .ok v) :
    ∃ v', estimateBeta freq (mapArr (fun x => Fl.fin c * x) psd) band log = .ok v' ∧ v'.beta = v.beta ∧
      ∀ r, v'.log_C r = v.log_C r + L c := by
  have hlen : freq.length = psd.length := by
    by_contra hne
    unfold estimateBeta at h
    rw [if_pos hne] at h; cases h
  set kept := (freq.zip psd).filter (fun p => decide (band.1 ≤ p.1 ∧ p.1 ≤ band.2)) with hk
  have hk' : (freq.zip (mapArr (fun x => Fl.fin c * x) psd)).filter (fun p => decide (band.1 ≤ p.1 ∧ p.1 ≤ band.2))
      = kept.map fun p => (p.1, fun r => Fl.fin c * p.2 r) := by
    rw [zip_mapArr, List.filter_map, hk]; rfl
  have h0 : ¬ ∃ p ∈ kept, p.1 = 0 := by
    rintro ⟨p, hp, hp0⟩
    rw [hk, List.mem_filter] at hp
    have hd := of_decide_eq_true hp.2
    rw [hp0] at hd
    obtain ⟨e, he⟩ := C57_zero_frequency (psd := psd) (band := band) log (hp0 ▸ (List.of_mem_zip hp.1).1) hd
    rw [he] at h; cases h
  rw [estimateBeta_eq hlog hlen h0, ← hk] at h
  rw [estimateBeta_eq hlog (by rw [mapArr_length, hlen])
    (by rw [hk']; rintro ⟨p, hp, hp0⟩; obtain ⟨q, hq, rfl⟩ := List.mem_map.mp hp; exact h0 ⟨q, hq, hp0⟩), hk']
  simp only [List.map_map] at h ⊢
  have hx : (List.map ((fun p : ℝ × Row (R + 1) => Fl.logOf L (Fl.fin p.1)) ∘ fun p => (p.1, fun r => Fl.fin c * p.2 r)) kept)
      = kept.map fun p => Fl.logOf L (Fl.fin p.1) := rfl
  rw [hx]
  unfold skFit at h ⊢
  by_cases hnil : (kept.map fun p => Fl.logOf L (Fl.fin p.1)) = []
  · rw [if_pos hnil] at h; cases h
  rw [if_neg hnil] at h ⊢
  by_cases hbad : ((kept.map fun p => Fl.logOf L (Fl.fin p.1)).all Fl.isFinite) = false ∨
      ∃ row ∈ mapArr (Fl.logOf L) (kept.map Prod.snd), ∃ r, (row r).isFinite = false
  · rw [if_pos hbad] at h; cases h
  rw [if_neg hbad] at h
  push Not at hbad
  have hpos : ∀ p ∈ kept, ∀ r, ∃ a, 0 < a ∧ p.2 r = Fl.fin a := by
    intro p hp r
    apply logOf_isFinite (L := L)
    have := hbad.2 (fun r => Fl.logOf L (p.2 r))
      (List.mem_map.mpr ⟨p.2, List.mem_map.mpr ⟨p, hp, rfl⟩, rfl⟩) r
    simpa using this
  have hcol : ∀ r, (col (mapArr (Fl.logOf L) (kept.map (Prod.snd ∘ fun p : ℝ × Row (R + 1) => (p.1, fun r => Fl.fin c * p.2 r)))) r)
      = (((col (mapArr (Fl.logOf L) (kept.map Prod.snd)) r).map Fl.toReal).map fun t => t + L c).map Fl.fin := by
    intro r
    rw [col_mapArr, col_mapArr]
    simp only [col, List.map_map]
    apply List.map_congr_left
    intro p hp
    obtain ⟨a, ha, hpa⟩ := hpos p hp r
    simp only [Function.comp, hpa]
    rw [Fl.fin_mul, logOf_fin (mul_pos hc ha), logOf_fin ha, hlog.mul hc ha, add_comm]
    rfl
  rw [if_neg]
  · refine ⟨_, rfl, ?_⟩
    simp only [Except.ok.injEq] at h
    subst h
    have htr : ∀ l : List ℝ, (l.map Fl.fin).map Fl.toReal = l := by
      intro l; rw [List.map_map]; exact List.map_id' l
    have key := fun r => skFit_shift ((kept.map fun p => Fl.logOf L (Fl.fin p.1)).map Fl.toReal)
      ((col (mapArr (Fl.logOf L) (kept.map Prod.snd)) r).map Fl.toReal) (L c)
      (by rw [List.length_map, List.length_map, List.length_map, col_length, mapArr_length, List.length_map])
      (by rw [ne_eq, List.map_eq_nil_iff]; exact hnil)
    refine ⟨?_, fun r => ?_⟩
    · refine Eq.trans ?_ (key 0).1
      simp only
      rw [hcol 0, htr]
    · refine Eq.trans ?_ (key r).2
      simp only
      rw [hcol r, htr]
  · rintro (hb | ⟨row, hrow, r, hb⟩)
    · exact hbad.1 hb
    · have : row r ∈ col (mapArr (Fl.logOf L) (kept.map (Prod.snd ∘ fun p : ℝ × Row (R + 1) => (p.1, fun r => Fl.fin c * p.2 r)))) r :=
        List.mem_map.mpr ⟨row, hrow, rfl⟩
      rw [hcol r] at this
      obtain ⟨t, -, ht⟩ := List.mem_map.mp this
      rw [← ht] at hb; cases hb

/-- C57 end to end: multiplying a finite signal by `a ≠ 0` does not change the slope found by `fractal_analysis`, and adds
`log a²` to the intercepts. -/
theorem C57_signal_scale {N : ℕ} {x : Fin (R + 1) → ℤ → ℝ} {pywt : WaveletLookup} {fs : ℝ} {n : ℕ} {wt : Wavelet}
    (hdb : pywt ("db" ++ toString n) = .ok wt) (hwt : wt.Valid) {band : ℝ × ℝ} {log : String} {L : ℝ → ℝ} (hlog : IsLog log L)
    {a : ℝ} (ha : a ≠ 0) {v : FractalValues R} (h : fractalAnalysis pywt (sampled N x) fs n band log = .ok v) :
    ∃ v', fractalAnalysis pywt (sampled N fun r t => a * x r t) fs n band log = .ok v' ∧ v'.beta = v.beta ∧
      ∀ r, v'.log_C r = v.log_C r + L (a ^ 2) := by
  unfold fractalAnalysis at h ⊢
  cases hs : waveletEstimation pywt (sampled N x) fs n none with
  | error e => simp only [hs] at h; cases h
  | ok s =>
    simp only [hs] at h
    rw [C55_scaling (by omega) hdb hwt a hs]
    exact C57_psd_scale hlog (by positivity) h

end MFA
