import Verif.Lemmas.NormalEq
import Verif.Props.HurstEstimation
import Verif.Props.Psd

/-!
# Property C105: the spectral exponent of `fractal_analysis` and the Hurst exponent of the wavelet structure function
-/

namespace MFA

universe u

open Classical Finset MeasureTheory ProbabilityTheory

noncomputable section

variable {R : ℕ} {wt : Wavelet}

/-- Mean of the squares of the ideal wavelet coefficients at scale `j` over the positions that do not touch the borders. -/
def coefPower (wt : Wavelet) (N : ℕ) (x : ℤ → ℝ) (j : ℕ) : ℝ :=
  (∑ k ∈ interior N wt.dec_hi.length j, idealDetail wt x j k ^ 2) / (interior N wt.dec_hi.length j).card

theorem coefPower_nonneg (wt : Wavelet) (N : ℕ) (x : ℤ → ℝ) (j : ℕ) : 0 ≤ coefPower wt N x j := by
  unfold coefPower; positivity

/-- The structure function of order 2 at scale `j`. -/
theorem sfMean_two {N : ℕ} {x : Fin R → ℤ → ℝ} {p : PExp} (hwt : wt.Valid) {j0 : ℤ} {j2 : Option ℝ}
    {g nm : ℝ} {weighted : Bool} {w : WT R} (hR : R ≠ 0) (h : waveletAnalysis (sampled N x) p wt j0 j2 g nm weighted = .ok w)
    {j : ℕ} (hj : 1 ≤ j) (hjl : j ≤ w.wt_coefs.values.length) (r : Fin R) :
    sfMean (coefSeq (wparams wt g nm) (sampled N x) j) (.real 2) r = Fl.fin ((2:ℝ) ^ ((j : ℝ) * (1 - 2 / nm + 2 * g)) * coefPower wt N (x r) j) := by
  have hcard := interior_card hwt hR h hj hjl
  obtain ⟨ml, K, Kc, h1, hK, hKc, hKc', h3, hc, hgood, hj2, hl⟩ := wa_inv h
  rw [sampled_length] at h1
  have hlen : w.wt_coefs.values.length = Kc := by rw [hc]; simp [scalesUpTo]
  rw [hlen] at hjl
  rw [sfMean, red, col_mapArr, col_mapArr, col_range, coefSeq_length _ _ _ hj, sampled_length, List.map_map, List.map_map]
  have e : (List.range (N / 2 ^ j)).map ((fastPower (.real 2) ∘ Fl.abs) ∘ fun k => ent (coefSeq (wparams wt g nm) (sampled N x) j) k r)
      = (List.range (N / 2 ^ j)).map fun k => if Bord N wt.dec_hi.length j k then Fl.nan
          else Fl.fin ((2:ℝ) ^ ((j : ℝ) * (1 - 2 / nm + 2 * g)) * idealDetail wt (x r) j k ^ 2) := by
    apply List.map_congr_left
    intro k hk
    simp only [Function.comp]
    rw [coef_ent wt hwt _ _ x r hj (fun i hi => by have := level_room h1 (i := i) (by omega); omega)
      (List.mem_range.mp hk), scaleFactor_eq]
    by_cases hb : Bord N wt.dec_hi.length j k
    · rw [if_pos hb]
      rw [if_pos (show 2 * k + 1 < wt.dec_hi.length - 1 ∨ N / 2 ^ (j - 1) < 2 * k + 1 + wt.dec_hi.length from hb)]
      rw [show Fl.abs Fl.nan = Fl.nan from rfl]; exact (fastPower_eq_nan_iff (by simp [NN]) _).2 rfl
    · rw [if_neg hb]
      rw [if_neg (show ¬ (2 * k + 1 < wt.dec_hi.length - 1 ∨ N / 2 ^ (j - 1) < 2 * k + 1 + wt.dec_hi.length) from hb),
        fastPower_abs_fin (Or.inl (by simp [Expo.val]))]
      congr 1
      simp only [Expo.val]
      rw [Real.rpow_two, sq_abs, mul_pow, ← Real.rpow_natCast, ← Real.rpow_mul (by norm_num)]
      congr 2
      push_cast; ring
  rw [e, nanmean_ite, ← interior_eq _ _ _ hwt.pos, ← mul_sum, mul_div_assoc]
  · rfl
  rw [← interior_eq _ _ _ hwt.pos]
  exact Finset.card_pos.mp (by omega)

/-- The analysis without leaders has at least as many scales of coefficients as any other one of the same signal. -/
theorem none_scales {N : ℕ} {x : Fin R → ℤ → ℝ} {p : PExp} (hwt : wt.Valid) {j0 j0' : ℤ} {j2 j2' : Option ℝ}
    {g nm g' nm' : ℝ} {weighted weighted' : Bool} {w w' : WT R} (hR : R ≠ 0)
    (h : waveletAnalysis (sampled N x) p wt j0 j2 g nm weighted = .ok w)
    (h' : waveletAnalysis (sampled N x) .none wt j0' j2' g' nm' weighted' = .ok w') :
    w.wt_coefs.values.length ≤ w'.wt_coefs.values.length := by
  obtain ⟨ml, K, Kc, h1, hK, hKc, hKc', h3, hc, hgood, hj2, hl⟩ := wa_inv h
  obtain ⟨ml', K', h1', hfb, -, hw'⟩ := wa_none_inv h'
  have e1 : w.wt_coefs.values.length = Kc := by rw [hc]; simp [scalesUpTo]
  have e2 : w'.wt_coefs.values.length = K' := by rw [hw']; simp [scalesUpTo]
  rw [e1, e2]
  rw [h1] at h1'; cases h1'
  rw [sampled_length] at h1
  by_contra hlt
  rw [not_le] at hlt
  apply hfb.2.2 (by omega)
  have hg := hgood (1 + K') (by omega) (by omega)
  have hroom : ∀ i < 1 + K', 2 * (wt.dec_hi.length + 1) ≤ N / 2 ^ i := fun i hi => level_room h1 (by omega)
  rw [tooFew_coef_iff wt hwt _ _ x (by omega) hroom hR] at hg ⊢
  exact hg

theorem arange_pairwise (a b : ℤ) : (arange a b).Pairwise (· < ·) := by
  unfold arange
  rw [List.pairwise_map]
  exact List.pairwise_lt_range.imp fun h => by omega

theorem range_filter_arange {K : ℕ} {j1 j2 : ℕ} (h1 : 1 ≤ j1) (h2 : j2 ≤ K) (P : ℕ → Prop) [DecidablePred P]
    (hP : ∀ i < K, P i ↔ j1 ≤ i + 1 ∧ i + 1 ≤ j2) :
    ((List.range K).filter fun i => decide (P i)).map (fun i : ℕ => (i : ℤ) + 1) = arange j1 (j2 + 1) := by
  apply List.Pairwise.eq_of_mem_iff (r := (· < ·)) _ (arange_pairwise _ _)
  · intro a
    rw [mem_arange, List.mem_map]
    constructor
    · rintro ⟨i, hi, rfl⟩
      rw [List.mem_filter, List.mem_range, decide_eq_true_eq] at hi
      have := (hP i hi.1).1 hi.2
      omega
    · rintro ⟨ha, hb⟩
      refine ⟨(a - 1).toNat, ?_, by omega⟩
      rw [List.mem_filter, List.mem_range, decide_eq_true_eq]
      have hlt : (a - 1).toNat < K := by omega
      exact ⟨hlt, (hP _ hlt).2 (by omega)⟩
  · rw [List.pairwise_map]
    exact (List.pairwise_lt_range.filter _).imp fun h => by omega

theorem arange_two {j1 j2 : ℕ} (h12 : j1 < j2) : ∃ p ∈ arange j1 (j2 + 1), ∃ p' ∈ arange j1 (j2 + 1), (p : ℝ) ≠ (p' : ℝ) := by
  refine ⟨(j1 : ℤ), mem_arange.2 (by omega), (j2 : ℤ), mem_arange.2 (by omega), ?_⟩
  have : (j1 : ℝ) < j2 := by exact_mod_cast h12
  push_cast; exact this.ne

/-- The slope and intercept of the structure function of order 2, as a regression over the scales. -/
theorem zeta_two {N : ℕ} {x : Fin R → ℤ → ℝ} {p : PExp} (hwt : wt.Valid) {j0 : ℤ} {j2' : Option ℝ}
    {g nm : ℝ} {weighted : Bool} {w : WT R} (h : waveletAnalysis (sampled N x) p wt j0 j2' g nm weighted = .ok w)
    {j1 j2 : ℕ} (h1 : 1 ≤ j1) (h12 : j1 < j2) (h2 : j2 ≤ w.wt_coefs.values.length) (r : Fin R) :
    zetaF w.wt_coefs j1 j2 false (.real 2) r = slopeL (arange j1 (j2 + 1)) (fun j : ℤ => (j : ℝ)) (fun _ => 1)
      (fun j : ℤ => Fl.log2 (Fl.fin ((2:ℝ) ^ ((j : ℝ) * (1 - 2 / nm + 2 * g)) * coefPower wt N (x r) j.toNat))) ∧
    zetaIF w.wt_coefs j1 j2 false (.real 2) r = interL (arange j1 (j2 + 1)) (fun j : ℤ => (j : ℝ)) (fun _ => 1)
      (fun j : ℤ => Fl.log2 (Fl.fin ((2:ℝ) ^ ((j : ℝ) * (1 - 2 / nm + 2 * g)) * coefPower wt N (x r) j.toNat))) := by
  have hR : R ≠ 0 := fun h0 => by subst h0; exact r.elim0
  obtain ⟨ml, K, Kc, -, -, -, -, -, hc, -⟩ := wa_inv h
  have hlen : w.wt_coefs.values.length = Kc := by rw [hc]; simp [scalesUpTo]
  have hreg : Regular w.wt_coefs Kc := by rw [hc]; exact scalesUpTo_regular _ _ _ _
  have hk := hreg.sub_keys (j1 := j1) (j2 := j2) (by exact_mod_cast h1) (by exact_mod_cast h12.le) (by exact_mod_cast hlen ▸ h2)
  have hval : ∀ q ∈ subR w.wt_coefs j1 j2, sfMean q.2 (.real 2) r =
      Fl.fin ((2:ℝ) ^ ((q.1 : ℝ) * (1 - 2 / nm + 2 * g)) * coefPower wt N (x r) q.1.toNat) := by
    intro q hq
    have hq' := sub_mem hq
    have hmem : q ∈ (scalesUpTo .coef g (coefSeq (wparams wt g nm) (sampled N x)) Kc).values := by rw [← hc]; exact hq'
    simp only [scalesUpTo, List.mem_map, List.mem_range] at hmem
    obtain ⟨i, hi, rfl⟩ := hmem
    rw [sfMean_two hwt hR h (by omega) (by omega)]
    simp
  constructor
  · unfold zetaF
    rw [← hk, slopeL_map]
    refine slopeL_congr (fun _ _ => rfl) (fun _ _ => by simp [wtOf]) ?_
    intro q hq
    rw [hval q hq]; rfl
  · unfold zetaIF
    rw [← hk, interL_map]
    refine interL_congr (fun _ _ => rfl) (fun _ _ => by simp [wtOf]) ?_
    intro q hq
    rw [hval q hq]; rfl

theorem IsLog.pos_two {log : String} {L : ℝ → ℝ} (h : IsLog log L) : 0 < L 2 := by
  rcases h with ⟨-, rfl⟩ | ⟨-, rfl⟩
  · simp
  · exact Real.log_pos (by norm_num)

theorem IsLog.eq_logb {log : String} {L : ℝ → ℝ} (h : IsLog log L) (a : ℝ) : L a = L 2 * Real.logb 2 a := by
  rcases h with ⟨-, rfl⟩ | ⟨-, rfl⟩
  · simp
  · rw [Real.logb]; field_simp [(Real.log_pos (by norm_num : (1:ℝ) < 2)).ne']

/-- `fractal_analysis` of a finite signal when the band selects the scales `j1..j2`. -/
theorem fractal_eq {N : ℕ} {x : Fin (R + 1) → ℤ → ℝ} {pywt : WaveletLookup} {fs : ℝ} {n : ℕ} (hdb : pywt ("db" ++ toString n) = .ok wt)
    (hwt : wt.Valid) (hfs : 0 < fs) {band : ℝ × ℝ} {log : String} {L : ℝ → ℝ} (hlog : IsLog log L) {s : PSD (R + 1)}
    (hs : waveletEstimation pywt (sampled N x) fs n none = .ok s) {j1 j2 : ℕ} (h1 : 1 ≤ j1) (h12 : j1 < j2) (h2 : j2 ≤ s.psd.length)
    (hband : ∀ j : ℕ, 1 ≤ j → j ≤ s.psd.length → (band.1 ≤ scale2freq j fs ∧ scale2freq j fs ≤ band.2 ↔ j1 ≤ j ∧ j ≤ j2)) :
    ((∀ r, ∀ j ∈ arange j1 (j2 + 1), 0 < coefPower wt N (x r) j.toNat) → ∃ v, fractalAnalysis pywt (sampled N x) fs n band log = .ok v ∧
      v.beta = skSlope ((arange j1 (j2 + 1)).map fun j : ℤ => L (3 / 4 * fs) + -L 2 * (j : ℝ))
        ((arange j1 (j2 + 1)).map fun j : ℤ => L (coefPower wt N (x 0) j.toNat)) ∧
      ∀ r, v.log_C r = skIntercept ((arange j1 (j2 + 1)).map fun j : ℤ => L (3 / 4 * fs) + -L 2 * (j : ℝ))
        ((arange j1 (j2 + 1)).map fun j : ℤ => L (coefPower wt N (x r) j.toNat))) ∧
    ((¬ ∀ r, ∀ j ∈ arange j1 (j2 + 1), 0 < coefPower wt N (x r) j.toNat) →
      fractalAnalysis pywt (sampled N x) fs n band log = .error .valueError) := by
  have hA : (0:ℝ) < 3 / 4 * fs := by positivity
  obtain ⟨hfl, hfreq, -⟩ := C55_frequencies hs
  have hrow : ∀ i < s.psd.length, s.psd[i]? = some (fun r => Fl.fin (coefPower wt N (x r) (i + 1))) := by
    intro i hi
    obtain ⟨-, row, h1, h2⟩ := C55_value (Nat.succ_ne_zero R) hdb hwt hs (j := i + 1) (by omega) (by omega)
    rw [Nat.add_sub_cancel] at h1
    rw [h1]
    congr 1
    funext r
    exact h2 r
  have hzip : s.freq.zip s.psd = (List.range s.psd.length).map fun i : ℕ =>
      (scale2freq ((i : ℝ) + 1) fs, (fun r => Fl.fin (coefPower wt N (x r) (i + 1)) : Row (R + 1))) := by
    apply List.ext_getElem?
    intro i
    by_cases hi : i < s.psd.length
    · rw [List.getElem?_map, List.getElem?_range hi, Option.map_some]
      exact List.getElem?_zip_eq_some.2 ⟨hfreq i hi, hrow i hi⟩
    · rw [List.getElem?_eq_none (by simp; omega), List.getElem?_eq_none (by simp; omega)]
  have hkept : (s.freq.zip s.psd).filter (fun p => decide (band.1 ≤ p.1 ∧ p.1 ≤ band.2)) =
      (arange j1 (j2 + 1)).map fun j : ℤ => (scale2freq (j : ℝ) fs, (fun r => Fl.fin (coefPower wt N (x r) j.toNat) : Row (R + 1))) := by
    rw [hzip, List.filter_map, ← range_filter_arange h1 h2
      (fun i => band.1 ≤ scale2freq ((i : ℝ) + 1) fs ∧ scale2freq ((i : ℝ) + 1) fs ≤ band.2)
      (fun i hi => by have := hband (i + 1) (by omega) (by omega); push_cast at this; exact this), List.map_map]
    simp only [Function.comp_def]
    apply List.map_congr_left
    intro i _
    congr 1
    push_cast; ring_nf
  have hsf : ∀ j : ℤ, 0 < scale2freq (j : ℝ) fs := by
    intro j; unfold scale2freq; positivity
  have hLf : ∀ j : ℤ, L (scale2freq (j : ℝ) fs) = L (3 / 4 * fs) + -L 2 * (j : ℝ) := by
    intro j
    unfold scale2freq
    rw [hlog.mul hA (by positivity), hlog.rpow two_pos]; ring
  have h0 : ¬ ∃ p ∈ (s.freq.zip s.psd).filter (fun p => decide (band.1 ≤ p.1 ∧ p.1 ≤ band.2)), p.1 = 0 := by
    rintro ⟨p, hp, hp0⟩
    rw [hkept] at hp
    obtain ⟨j, -, rfl⟩ := List.mem_map.1 hp
    exact (hsf j).ne' hp0
  have hfa : fractalAnalysis pywt (sampled N x) fs n band log = estimateBeta s.freq s.psd band log := by
    unfold fractalAnalysis; rw [hs]
  rw [hfa, estimateBeta_eq hlog hfl h0, hkept]
  have hxl : ((arange j1 (j2 + 1)).map fun j : ℤ => (scale2freq (j : ℝ) fs, (fun r => Fl.fin (coefPower wt N (x r) j.toNat) : Row (R + 1)))).map
      (fun p => Fl.logOf L (Fl.fin p.1)) = ((arange j1 (j2 + 1)).map fun j : ℤ => L (3 / 4 * fs) + -L 2 * (j : ℝ)).map Fl.fin := by
    rw [List.map_map, List.map_map]
    apply List.map_congr_left
    intro j _
    simp only [Function.comp]
    rw [logOf_fin (hsf j), hLf]
  have hyl : mapArr (Fl.logOf L) (((arange j1 (j2 + 1)).map fun j : ℤ =>
      (scale2freq (j : ℝ) fs, (fun r => Fl.fin (coefPower wt N (x r) j.toNat) : Row (R + 1)))).map Prod.snd) =
      (arange j1 (j2 + 1)).map fun j : ℤ => (fun r => Fl.logOf L (Fl.fin (coefPower wt N (x r) j.toNat)) : Row (R + 1)) := by
    rw [List.map_map, mapArr, List.map_map]
    rfl
  rw [hxl, hyl]
  have hne : ((arange j1 (j2 + 1)).map fun j : ℤ => L (3 / 4 * fs) + -L 2 * (j : ℝ)).map Fl.fin ≠ [] := by
    obtain ⟨p, hp, -⟩ := arange_two h12
    intro h
    rw [List.map_eq_nil_iff, List.map_eq_nil_iff] at h
    rw [h] at hp; cases hp
  have hall : (((arange j1 (j2 + 1)).map fun j : ℤ => L (3 / 4 * fs) + -L 2 * (j : ℝ)).map Fl.fin).all Fl.isFinite = true := by
    rw [List.all_eq_true]
    intro y hy
    obtain ⟨t, -, rfl⟩ := List.mem_map.mp hy
    rfl
  have htr : ∀ l : List ℝ, (l.map Fl.fin).map Fl.toReal = l := by
    intro l; rw [List.map_map]; exact List.map_id' l
  unfold skFit
  rw [if_neg hne]
  constructor
  · intro hpos
    rw [if_neg]
    · have hcol : ∀ r, (col ((arange j1 (j2 + 1)).map fun j : ℤ =>
          (fun r => Fl.logOf L (Fl.fin (coefPower wt N (x r) j.toNat)) : Row (R + 1))) r).map Fl.toReal =
          (arange j1 (j2 + 1)).map fun j : ℤ => L (coefPower wt N (x r) j.toNat) := by
        intro r
        rw [col, List.map_map, List.map_map]
        apply List.map_congr_left
        intro j hj
        simp only [Function.comp]
        rw [logOf_fin (hpos r j hj)]; rfl
      refine ⟨_, rfl, ?_, fun r => ?_⟩
      · simp only [htr, hcol]
      · simp only [htr, hcol]
    · rintro (h | ⟨row, hrow, r, h⟩)
      · rw [hall] at h; cases h
      · obtain ⟨j, hj, rfl⟩ := List.mem_map.1 hrow
        simp only at h
        rw [logOf_fin (hpos r j hj)] at h; cases h
  · intro hneg
    push Not at hneg
    obtain ⟨r, j, hj, hle⟩ := hneg
    rw [if_pos]
    refine Or.inr ⟨_, List.mem_map.2 ⟨j, hj, rfl⟩, r, ?_⟩
    have : coefPower wt N (x r) j.toNat = 0 := le_antisymm hle (coefPower_nonneg _ _ _ _)
    rw [this]
    simp [Fl.logOf, Fl.isFinite]

/-- **C105**: the spectral exponent and the Hurst exponent measure the same slope.  For every finite signal, if the frequency band
selects exactly the scales `j1..j2`, then `fractal_analysis` returns iff the estimate `H` of the unweighted structure function of the
wavelet coefficients over `j1..j2` is finite for every realisation (and it raises ValueError otherwise); in that case
`beta = -(2 H - 1 + 2 / normalization)` for the first realisation, that is `-(2 H + 1)` with the default normalisation, and
`log_C` is given by the intercept.  The wavelet must be the same `db n`; `p_exp`, `gamint`, the other exponents `q`, the logarithm
and the sampling frequency do not matter. -/
theorem C105_beta_hurst {N : ℕ} {x : Fin (R + 1) → ℤ → ℝ} {pywt : WaveletLookup} {fs : ℝ} {n : ℕ}
    (hdb : pywt ("db" ++ toString n) = .ok wt) (hwt : wt.Valid) (hfs : 0 < fs) {band : ℝ × ℝ} {log : String} {L : ℝ → ℝ} (hlog : IsLog log L)
    {p : PExp} {j0 : ℤ} {j2' : Option ℝ} {g nm : ℝ} {weighted : Bool} {w : WT (R + 1)}
    (h : waveletAnalysis (sampled N x) p wt j0 j2' g nm weighted = .ok w)
    {j1 j2 : ℕ} (h1 : 1 ≤ j1) (h12 : j1 < j2) (h2 : j2 ≤ w.wt_coefs.values.length)
    (hband : ∀ j : ℕ, 1 ≤ j → (band.1 ≤ scale2freq j fs ∧ scale2freq j fs ≤ band.2 ↔ j1 ≤ j ∧ j ≤ j2)) {q : List ℝ} (hq : (2:ℝ) ∈ q) :
    ∃ s, StructFn.make w.wt_coefs (.ndarray q) j1 j2 false = .ok s ∧
      ((¬ ∀ r, ∃ t, s.H r = Fl.fin t) → fractalAnalysis pywt (sampled N x) fs n band log = .error .valueError) ∧
      ((∀ r, ∃ t, s.H r = Fl.fin t) → ∃ (v : FractalValues R) (H c : Fin (R + 1) → ℝ), fractalAnalysis pywt (sampled N x) fs n band log = .ok v ∧
        (∀ r, s.H r = Fl.fin (H r)) ∧ (∃ i, s.getIntercept = some i ∧ ∀ r, i r = Fl.fin (c r)) ∧
        v.beta = -(2 * H 0 - 1 + 2 / nm) ∧ ∀ r, v.log_C r = L 2 * c r + (2 * H r - 1 + 2 / nm) * L (3 / 4 * fs)) := by
  have hR : R + 1 ≠ 0 := Nat.succ_ne_zero R
  have hN : N ≠ 0 := by
    obtain ⟨ml, K, Kc, h1, -⟩ := wa_inv h
    rw [sampled_length] at h1
    exact maxLevel_nonzero h1
  obtain ⟨ps, hps⟩ := we_total pywt (sampled N x) hR (sampled_ne_nil hN x) fs n none hdb
  have hlen : j2 ≤ ps.psd.length := by
    obtain ⟨wt', w', hp, hw', hpsd, -⟩ := we_inv hps
    rw [hdb] at hp; cases hp
    rw [hpsd, List.length_map]
    exact h2.trans (none_scales hwt hR h hw')
  obtain ⟨hfok, hferr⟩ := fractal_eq hdb hwt hfs hlog hps h1 h12 hlen (fun j hj _ => hband j hj)
  obtain ⟨ml, K, Kc, -, -, -, -, -, hc, -⟩ := wa_inv h
  have hKc : w.wt_coefs.values.length = Kc := by rw [hc]; simp [scalesUpTo]
  have hreg : Regular w.wt_coefs Kc := by rw [hc]; exact scalesUpTo_regular _ _ _ _
  have hg : w.wt_coefs.gamint = g := by rw [hc]; rfl
  have hsf := hreg.structFn (j1 := j1) (j2 := j2) (by exact_mod_cast h1) (by exact_mod_cast h12.le) (by exact_mod_cast hKc ▸ h2) false q hq
  refine ⟨_, hsf, ?_⟩
  simp only
  have hz := fun r => zeta_two hwt h h1 h12 h2 r
  have hpw : ∀ j : ℤ, (0:ℝ) < (2:ℝ) ^ ((j : ℝ) * (1 - 2 / nm + 2 * g)) := fun j => by positivity
  -- finite iff all the mean squares are positive
  have hfin : ∀ r, (∃ t, zetaF w.wt_coefs j1 j2 false (.real 2) r / Fl.fin 2 - Fl.fin w.wt_coefs.gamint = Fl.fin t) →
      ∀ j ∈ arange j1 (j2 + 1), 0 < coefPower wt N (x r) j.toNat := by
    rintro r ⟨t, ht⟩
    have hzf : ∃ u, zetaF w.wt_coefs j1 j2 false (.real 2) r = Fl.fin u := by
      cases hzz : zetaF w.wt_coefs j1 j2 false (.real 2) r with
      | fin u => exact ⟨u, rfl⟩
      | nan => rw [hzz] at ht; cases ht
      | pinf =>
        rw [hzz] at ht
        exfalso
        have : (Fl.pinf / Fl.fin 2 : Fl) = Fl.pinf := by
          show Fl.pinf * (Fl.fin 2)⁻¹ = _
          rw [show (Fl.fin 2)⁻¹ = Fl.fin (2⁻¹) by show Fl.inv _ = _; simp [Fl.inv]]
          show Fl.sgnInf _ = _
          simp [Fl.sgnInf]
        rw [this] at ht; cases ht
      | ninf =>
        rw [hzz] at ht
        exfalso
        have : (Fl.ninf / Fl.fin 2 : Fl) = Fl.ninf := by
          show Fl.ninf * (Fl.fin 2)⁻¹ = _
          rw [show (Fl.fin 2)⁻¹ = Fl.fin (2⁻¹) by show Fl.inv _ = _; simp [Fl.inv]]
          show Fl.sgnInf _ = _
          simp [Fl.sgnInf]
        rw [this] at ht; cases ht
    obtain ⟨u, hu⟩ := hzf
    rw [(hz r).1] at hu
    intro j hj
    obtain ⟨y, hy⟩ := slopeL_finite _ _ _ (fun _ _ => zero_le_one) _ hu j hj
    have hy' : (Fl.logOf (Real.logb 2) (Fl.fin ((2:ℝ) ^ ((j : ℝ) * (1 - 2 / nm + 2 * g)) * coefPower wt N (x r) j.toNat))).isFinite = true := by
      rw [show Fl.logOf (Real.logb 2) = Fl.log2 from rfl, hy]; rfl
    obtain ⟨a, ha, hae⟩ := logOf_isFinite hy'
    rw [← (Fl.fin_inj _ _).1 hae] at ha
    exact pos_of_mul_pos_right ha (hpw j).le
  have hline : ∀ r, (∀ j ∈ arange j1 (j2 + 1), 0 < coefPower wt N (x r) j.toNat) → ∃ s i : ℝ,
      Normal (arange j1 (j2 + 1)) (fun j : ℤ => (j : ℝ)) (fun j : ℤ => Real.logb 2 (coefPower wt N (x r) j.toNat)) s i ∧
      zetaF w.wt_coefs j1 j2 false (.real 2) r = Fl.fin (s + (1 - 2 / nm + 2 * g)) ∧ zetaIF w.wt_coefs j1 j2 false (.real 2) r = Fl.fin i := by
    intro r hpos
    obtain ⟨s, i, hsi⟩ := exists_normal (arange j1 (j2 + 1)) (fun j : ℤ => (j : ℝ)) (fun j : ℤ => Real.logb 2 (coefPower wt N (x r) j.toNat))
      (arange_two h12)
    refine ⟨s, i, hsi, ?_⟩
    have hsi' := hsi.change 0 one_ne_zero 1 (1 - 2 / nm + 2 * g) 0
    simp only [zero_add, one_mul, add_zero, div_one, zero_mul, sub_zero] at hsi'
    have := slopeL_normal _ _ _ (arange_two h12) hsi'
    rw [← this.1, ← this.2, (hz r).1, (hz r).2]
    constructor
    · refine slopeL_congr (fun _ _ => rfl) (fun _ _ => rfl) fun j hj => ?_
      rw [show Fl.log2 = Fl.logOf (Real.logb 2) from rfl, logOf_fin (mul_pos (hpw j) (hpos j hj)),
        Real.logb_mul (hpw j).ne' (hpos j hj).ne', Real.logb_rpow (by norm_num) (by norm_num)]
      congr 1; ring
    · refine interL_congr (fun _ _ => rfl) (fun _ _ => rfl) fun j hj => ?_
      rw [show Fl.log2 = Fl.logOf (Real.logb 2) from rfl, logOf_fin (mul_pos (hpw j) (hpos j hj)),
        Real.logb_mul (hpw j).ne' (hpos j hj).ne', Real.logb_rpow (by norm_num) (by norm_num)]
      congr 1; ring
  constructor
  · intro hnot
    apply hferr
    intro hpos
    apply hnot
    intro r
    obtain ⟨s, i, -, hs, -⟩ := hline r (hpos r)
    rw [hs, Fl.fin_div two_ne_zero, Fl.fin_sub]
    exact ⟨_, rfl⟩
  · intro hall
    have hpos := fun r => hfin r (hall r)
    obtain ⟨v, hv, hvb, hvc⟩ := hfok hpos
    choose s i hn hs hi using fun r => hline r (hpos r)
    refine ⟨v, fun r => (s r + (1 - 2 / nm + 2 * g)) / 2 - g, i, hv, ?_, ?_, ?_, ?_⟩
    · intro r
      rw [hs, hg, Fl.fin_div two_ne_zero, Fl.fin_sub]
    · simp only [StructFn.getIntercept]
      rw [maskEq_map q 2 (fun e => zetaIF w.wt_coefs j1 j2 false (.real e))]
      have hmem : (2:ℝ) ∈ q.filter (fun t => decide (t = 2)) := by simp [hq]
      cases hqf : q.filter (fun t => decide (t = 2)) with
      | nil => rw [hqf] at hmem; cases hmem
      | cons a l =>
        have ha : a = 2 := by
          have : a ∈ q.filter (fun t => decide (t = 2)) := by rw [hqf]; simp
          simpa using (List.mem_filter.1 this).2
        exact ⟨_, rfl, fun r => by rw [ha]; exact hi r⟩
    all_goals
      have hsk : ∀ r, skSlope ((arange j1 (j2 + 1)).map fun j : ℤ => L (3 / 4 * fs) + -L 2 * (j : ℝ))
          ((arange j1 (j2 + 1)).map fun j : ℤ => L (coefPower wt N (x r) j.toNat)) = -s r ∧
        skIntercept ((arange j1 (j2 + 1)).map fun j : ℤ => L (3 / 4 * fs) + -L 2 * (j : ℝ))
          ((arange j1 (j2 + 1)).map fun j : ℤ => L (coefPower wt N (x r) j.toNat)) = L 2 * i r + s r * L (3 / 4 * fs) := by
        intro r
        have hL2 := hlog.pos_two
        have hn' := (hn r).change (L (3 / 4 * fs)) (neg_ne_zero.2 hL2.ne') (L 2) 0 0
        have hex : ∃ p ∈ arange j1 (j2 + 1), ∃ p' ∈ arange j1 (j2 + 1),
            L (3 / 4 * fs) + -L 2 * (p : ℝ) ≠ L (3 / 4 * fs) + -L 2 * (p' : ℝ) := by
          obtain ⟨p, hp, p', hp', hne⟩ := arange_two h12
          refine ⟨p, hp, p', hp', fun he => hne ?_⟩
          have : L 2 * (p : ℝ) = L 2 * (p' : ℝ) := by linarith
          exact mul_left_cancel₀ hL2.ne' this
        have hres := sk_normal _ _ _ hex hn'
        have e1 : (L 2 * s r + 0) / -L 2 = -s r := by field_simp; ring
        have e2 : (fun j : ℤ => L 2 * Real.logb 2 (coefPower wt N (x r) j.toNat) + 0 * (j : ℝ) + 0) = fun j : ℤ => L (coefPower wt N (x r) j.toNat) := by
          funext j; rw [hlog.eq_logb (coefPower wt N (x r) j.toNat)]; ring
        rw [e1, e2] at hres
        refine ⟨hres.1, hres.2.trans (by ring)⟩
    · rw [hvb, (hsk 0).1]; ring
    · intro r
      rw [hvc r, (hsk r).2]; ring

/-- The band between the frequencies of two scales selects the scales in between. -/
theorem scale_band {fs : ℝ} (hfs : 0 < fs) (j1 j2 j : ℕ) :
    scale2freq j2 fs ≤ scale2freq j fs ∧ scale2freq j fs ≤ scale2freq j1 fs ↔ j1 ≤ j ∧ j ≤ j2 := by
  have hm : ∀ a b : ℕ, scale2freq a fs ≤ scale2freq b fs ↔ b ≤ a := by
    intro a b
    unfold scale2freq
    rw [mul_le_mul_iff_right₀ (by positivity), Real.rpow_le_rpow_left_iff (by norm_num), neg_le_neg_iff]
    exact Nat.cast_le
  rw [hm, hm, and_comm]

/-- If the exponent is well estimated in every realisation, then so is the slope of the wavelet spectrum. -/
theorem beta_near (hwt : wt.Valid) {pywt : WaveletLookup} {n : ℕ} (hdb : pywt ("db" ++ toString n) = .ok wt) {Ω : Type u} [MeasurableSpace Ω]
    {μ : Measure Ω} {R N : ℕ} {x : Ω → RArr (R + 1)} (hlenx : ∀ ω, (x ω).length = N) {j1 j2 : ℕ} (hj1 : 1 ≤ j1) (hj12 : j1 < j2)
    (hNl : 2 ^ (j2 + 1) * (wt.dec_hi.length + 1) ≤ N) {h ε δ : ℝ}
    (hb : ∀ r, μ {ω | ¬ ∃ d, mfAnalysisFull (asFloats (x ω)) j1 (some j2) 1 0 false wt .none (some (.ndarray [2])) 1 = .ok d ∧
        MonofractalNear d.dwt [2] 1 h (ε / 2) r} ≤ ENNReal.ofReal (δ / (R + 1))) {fs : ℝ} {log : String} (hfs : 0 < fs)
    (hlog : log = "log2" ∨ log = "log") :
    μ {ω | ¬ ∃ v, fractalAnalysis pywt (asFloats (x ω)) fs n (scale2freq j2 fs, scale2freq j1 fs) log = .ok v ∧
        |v.beta - -(2 * h + 1)| ≤ ε} ≤ ENNReal.ofReal δ := by
  have hj2 : 1 ≤ j2 := by omega
  obtain ⟨L, hL⟩ : ∃ L, IsLog log L := by
    rcases hlog with rfl | rfl
    · exact ⟨_, Or.inl ⟨rfl, rfl⟩⟩
    · exact ⟨_, Or.inr ⟨rfl, rfl⟩⟩
  have hsub : {ω | ¬ ∃ v, fractalAnalysis pywt (asFloats (x ω)) fs n (scale2freq j2 fs, scale2freq j1 fs) log = .ok v ∧
        |v.beta - -(2 * h + 1)| ≤ ε} ⊆ ⋃ r : Fin (R + 1),
      {ω | ¬ ∃ d, mfAnalysisFull (asFloats (x ω)) j1 (some j2) 1 0 false wt .none (some (.ndarray [2])) 1 = .ok d ∧
        MonofractalNear d.dwt [2] 1 h (ε / 2) r} := by
    intro ω hω
    by_contra hno
    have hno : ∀ r : Fin (R + 1), ∃ d, mfAnalysisFull (asFloats (x ω)) j1 (some j2) 1 0 false wt .none (some (.ndarray [2])) 1 = .ok d ∧
        MonofractalNear d.dwt [2] 1 h (ε / 2) r := fun r => by
      by_contra hc
      exact hno (Set.mem_iUnion.2 ⟨r, hc⟩)
    apply hω
    choose d hd hnear using hno
    have hd0 : ∀ r, d r = d 0 := fun r => by
      have := (hd r).symm.trans (hd 0)
      exact Except.ok.inj this
    have hd' := hd 0
    unfold mfAnalysisFull at hd'
    rw [asFloats_sampled (hlenx ω)] at hd' ⊢
    cases hw : waveletAnalysis (sampled N fun r t => ((x ω).getD t.toNat fun _ => 0) r) .none wt (j1 : ℤ) (some (j2 : ℝ)) 0 1 false with
    | error e => rw [hw] at hd'; cases hd'
    | ok w =>
      rw [hw] at hd'
      simp only at hd'
      obtain ⟨hj2e, hlen⟩ := long_enough (Nat.succ_ne_zero R) hwt (Or.inl rfl) hj2 hNl hw
      rw [C47_bundle, hj2e] at hd'
      obtain ⟨⟨b1, -⟩, -⟩ := hd'
      change StructFn.make _ (.ndarray [2]) _ _ _ = _ at b1
      obtain ⟨s, hs1, -, hs2⟩ := C105_beta_hurst (log := log) hdb hwt hfs hL hw hj1 hj12 hlen
        (band := (scale2freq j2 fs, scale2freq j1 fs)) (fun j _ => scale_band hfs j1 j2 j) (q := [2]) (by simp)
      rw [b1] at hs1
      rw [← Except.ok.inj hs1] at hs2
      obtain ⟨v, Hh, c, hv, hHh, -, hbeta, -⟩ := hs2 (fun r => by
        obtain ⟨t, ht, -⟩ := (hnear r).1
        rw [hd0 r] at ht
        exact ⟨t, ht⟩)
      refine ⟨v, hv, ?_⟩
      obtain ⟨t, ht, htb⟩ := (hnear 0).1
      rw [hHh 0] at ht
      rw [← (Fl.fin_inj _ _).1 ht] at htb
      rw [hbeta, show -(2 * Hh 0 - 1 + 2 / 1) - -(2 * h + 1) = -(2 * (Hh 0 - h)) by ring, abs_neg, abs_mul, abs_two]
      linarith
  refine (measure_mono hsub).trans ((measure_iUnion_le _).trans ?_)
  rw [tsum_fintype]
  refine (Finset.sum_le_sum fun r _ => hb r).trans ?_
  rw [Finset.sum_const, Finset.card_univ, Fintype.card_fin, nsmul_eq_mul, ← ENNReal.ofReal_natCast, ← ENNReal.ofReal_mul (by positivity)]
  apply ENNReal.ofReal_le_ofReal
  push_cast
  field_simp
  exact le_rfl

/-- **C105, end to end**: simulate fractional Brownian motion of parameter `H` with `fbm`, estimate its spectral exponent with
`fractal_analysis` on the band of the scales `j1..j2`.  For all `ε`, `δ` there is a scale `j₀` such that for every range
`j₀ ≤ j1 < j2` and every long enough signal the call returns and `beta` is within `ε` of `-(2 H + 1)` with probability at least
`1 - δ`. -/
theorem C105_fbm {M : ℕ} (hM : VanishingMoments wt.dec_hi M) (hM1 : 1 ≤ M) (hwt : wt.Valid) (ho : OrthonormalBank wt)
    {pywt : WaveletLookup} {n : ℕ} (hdb : pywt ("db" ++ toString n) = .ok wt) {H : ℝ}
    (h0 : 0 < H) (h1 : H < 1) (hH : 4 * H - 4 * M < -1) (R : ℕ) (ε δ : ℝ) (hε : 0 < ε) (hδ : 0 < δ) : ∃ j₀ : ℕ, 1 ≤ j₀ ∧
    ∀ j1 j2 : ℕ, j₀ ≤ j1 → j1 < j2 → ∃ N₀ : ℕ,
    ∀ {Ω : Type u} [MeasurableSpace Ω] {μ : Measure Ω} {gen : Ω → ℕ → ℝ}, StdNormal μ gen →
    ∀ {N : ℕ} {sigma : ℝ} {dt : Option ℝ} (z0 : Option (CArr (R + 1))), N₀ ≤ N → sigma ≠ 0 → (∀ d, dt = some d → 0 ≤ d) →
      ∃ x : Ω → RArr (R + 1), Returns (fbm (R + 1) N H sigma dt "cme" z0) gen x ∧
      ∀ (fs : ℝ) (log : String), 0 < fs → log = "log2" ∨ log = "log" →
      μ {ω | ¬ ∃ v, fractalAnalysis pywt (asFloats (x ω)) fs n (scale2freq j2 fs, scale2freq j1 fs) log = .ok v ∧
        |v.beta - -(2 * H + 1)| ≤ ε} ≤ ENNReal.ofReal δ := by
  obtain ⟨j₀, hj₀, h⟩ := C101_fbm.{u} hM hM1 hwt ho h0 h1 hH [2] 1 (by simp) (by intro e he; simp at he; rw [he]; norm_num)
    (ε / 2) (δ / (R + 1)) (by positivity) (by positivity)
  refine ⟨j₀, hj₀, ?_⟩
  intro j1 j2 hj01 hj12
  obtain ⟨N₀, hN₀⟩ := h j1 j2 hj01 hj12
  refine ⟨max N₀ (2 ^ (j2 + 1) * (wt.dec_hi.length + 1)), ?_⟩
  intro Ω _ μ gen hg N sigma dt z0 hN hs hdt
  have hNl := (le_max_right _ _).trans hN
  obtain ⟨x, hx, hb⟩ := hN₀ hg (R := R + 1) z0 ((le_max_left _ _).trans hN) hs hdt (Nat.succ_ne_zero R)
  have hj2 : 1 ≤ j2 := by omega
  have hN2 : 2 ≤ N := by
    have h1 : 2 ≤ 2 ^ (j2 + 1) := by
      calc 2 = 2 ^ 1 := by norm_num
        _ ≤ 2 ^ (j2 + 1) := Nat.pow_le_pow_right (by norm_num) (by omega)
    have h2 : 2 ^ (j2 + 1) * 1 ≤ 2 ^ (j2 + 1) * (wt.dec_hi.length + 1) := Nat.mul_le_mul_left _ (by omega)
    omega
  have hlenx : ∀ ω, (x ω).length = N := by
    obtain ⟨x', hx', hG', -⟩ := C85_fbm (R := R + 1) (sigma := sigma) z0 h0 h1.le hN2 hdt (Nat.succ_ne_zero R) hg
    intro ω
    obtain ⟨k, hk, hkx⟩ := hx ω
    obtain ⟨k', hk', hkx'⟩ := hx' ω
    rw [hk] at hk'
    have : x ω = x' ω := by rw [← hkx, ← hkx', Except.ok.inj hk']
    rw [this]; exact hG'.length ω
  exact ⟨x, hx, fun fs log hfs hlog => beta_near hwt hdb hlenx (hj₀.trans hj01) hj12 hNl (fun r => hb .none false r (Or.inl rfl)) hfs hlog⟩

/-! The hypotheses are met: fractional Brownian motion analysed with `db2`. -/
example (H : ℝ) (h0 : 0 < H) (h1 : H < 1) (ε δ : ℝ) (hε : 0 < ε) (hδ : 0 < δ) : ∃ j1 j2 N : ℕ, 1 ≤ j1 ∧ j1 < j2 ∧
    ∃ (Ω : Type) (_ : MeasurableSpace Ω) (μ : Measure Ω) (gen : Ω → ℕ → ℝ) (x : Ω → RArr 2), StdNormal μ gen ∧
    Returns (fbm 2 N H 1 none "cme" none) gen x ∧
    μ {ω | ¬ ∃ v, fractalAnalysis (fun s => if s = "db2" then .ok db2 else .error .valueError) (asFloats (x ω)) 1 2
        (scale2freq j2 1, scale2freq j1 1) "log2" = .ok v ∧ |v.beta - -(2 * H + 1)| ≤ ε} ≤ ENNReal.ofReal δ := by
  obtain ⟨hv, ho, hm⟩ := db2_orthonormal
  obtain ⟨j₀, hj₀, h⟩ := C105_fbm hm (by norm_num) hv ho (pywt := fun s => if s = "db2" then .ok db2 else .error .valueError) (n := 2)
    (by rw [if_pos (by decide)]) h0 h1 (by push_cast; linarith) 1 ε δ hε hδ
  obtain ⟨N₀, hN₀⟩ := h j₀ (j₀ + 1) le_rfl (by omega)
  obtain ⟨Ω, m, μ, gen, hg⟩ := exists_stdNormal
  obtain ⟨x, hx, hb⟩ := hN₀ hg (sigma := 1) (dt := none) none le_rfl one_ne_zero (by intro d hd; cases hd)
  exact ⟨j₀, j₀ + 1, N₀, hj₀, by omega, Ω, m, μ, gen, x, hg, hx, hb 1 "log2" one_pos (Or.inl rfl)⟩

end

end MFA
