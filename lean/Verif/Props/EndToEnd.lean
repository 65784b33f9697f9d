import Verif.Lemmas.PolyBank
import Verif.Props.FullPLeaders

/-! Property C77: the whole pipeline on polynomials whose degree is the number of vanishing moments. -/

namespace MFA

open Classical Finset Polynomial

variable {R : ℕ}

/-- Every stored coefficient of a finite signal is NaN or the rescaled ideal coefficient, and there is a usable one in each
realisation at each scale. -/
theorem coef_entries {N : ℕ} {x : Fin R → ℤ → ℝ} {p : PExp} {wt : Wavelet} (hwt : wt.Valid) {j1 : ℤ} {j2 : Option ℝ}
    {g nm : ℝ} {weighted : Bool} {w : WT R} (h : waveletAnalysis (sampled N x) p wt j1 j2 g nm weighted = .ok w)
    {q : ℤ × Arr R} (hq : q ∈ w.wt_coefs.values) (r : Fin R) :
    (∃ v ∈ col q.2 r, v ≠ Fl.nan) ∧
    ∀ v ∈ col q.2 r, v = Fl.nan ∨ ∃ s k : ℕ, 1 ≤ s ∧ q.1 = s ∧
      v = Fl.fin ((2:ℝ) ^ ((s : ℝ) * (1 / 2 - 1 / nm + g)) * idealDetail wt (x r) s k) := by
  obtain ⟨J, Jc, -, -, hreg, -⟩ := C03_regular h
  obtain ⟨hcnt, h3⟩ := C04_three_values h w.wt_coefs (Or.inl rfl) q hq
  refine ⟨?_, fun v hx => ?_⟩
  · by_contra hall
    push Not at hall
    have : (col q.2 r).countP (fun x => !x.isNaN) = 0 := by
      rw [List.countP_eq_zero]; intro x hx; simp [hall x hx]
    have := h3 r; omega
  · have hget := hreg.getValue hq
    unfold getKey at hget
    obtain ⟨k, hk, e⟩ := List.getElem_of_mem hx
    have hq1 := hreg.key_range hq
    obtain ⟨s, hs⟩ : ∃ s : ℕ, q.1 = (s : ℤ) := ⟨q.1.toNat, by omega⟩
    have hv : w.wt_coefs.val? s k r = some v := by
      unfold MRQ.val?
      rw [← hs]
      split at hget
      · rename_i u hu
        cases hget
        rw [hu]
        have hk' : k < q.2.length := by simpa [col] using hk
        simp only [Option.bind_some]
        rw [List.getElem?_eq_getElem hk']
        simp only [Option.map_some]
        rw [← e]; simp [col]
      · cases hget
    by_cases hn : v = Fl.nan
    · exact Or.inl hn
    · exact Or.inr ⟨s, k, by omega, hs, C08_ideal hwt h hv hn⟩

/-- The filter has exactly `M` vanishing moments. -/
def ExactMoments (f : List ℝ) (M : ℕ) : Prop :=
  VanishingMoments f M ∧ ∑ m ∈ range f.length, f.getD m 0 * (m : ℝ) ^ M ≠ 0

/-- The coefficients of a polynomial of degree `M` are ideal monofractal data. -/
theorem poly_monofractal {N : ℕ} {Q : Fin R → ℝ[X]} {p : PExp} {wt : Wavelet} (hwt : wt.Valid) {M : ℕ}
    (hM : ExactMoments wt.dec_hi M) {G : ℝ} (hG : 0 < G) (hlo : wt.dec_lo.sum = G)
    (hQ : ∀ r, (Q r).degree = M) {j1 : ℤ} {j2 : Option ℝ}
    {g nm : ℝ} {weighted : Bool} {w : WT R}
    (h : waveletAnalysis (sampled N fun r t => (Q r).eval (t : ℝ)) p wt j1 j2 g nm weighted = .ok w) :
    ∃ K : Fin R → ℝ, (∀ r, 0 < K r) ∧
      Monofractal w.wt_coefs K (fun _ => M + Real.logb 2 G + 1 / 2 - 1 / nm + g) := by
  set mu : ℝ := ∑ m ∈ range wt.dec_hi.length, wt.dec_hi.getD m 0 * (m : ℝ) ^ M with hmu
  have hsum : ∑ m ∈ range wt.dec_lo.length, wt.dec_lo.getD m 0 = G := by
    rw [← hlo, ← Fin.sum_univ_eq_sum_range (fun m => wt.dec_lo.getD m 0), ← List.sum_ofFn]
    congr 1
    apply List.ext_getElem <;> simp
  have hnd : ∀ r, (Q r).natDegree = M := fun r => natDegree_eq_of_degree_eq_some (hQ r)
  have hco : ∀ r, (Q r).coeff M ≠ 0 := fun r => by
    rw [← hnd r]
    exact leadingCoeff_ne_zero.mpr (fun h0 => by have := hQ r; rw [h0] at this; simp at this)
  have h2 : (0:ℝ) < 2 := by norm_num
  refine ⟨fun r => |mu * (Q r).coeff M| * (2:ℝ) ^ (-((M : ℝ) + Real.logb 2 G)), fun r => ?_, ?_⟩
  · exact mul_pos (abs_pos.mpr (mul_ne_zero hM.2 (hco r))) (by positivity)
  · intro q hq r
    obtain ⟨ha, hb⟩ := coef_entries hwt h hq r
    refine ⟨ha, fun v hv => ?_⟩
    rcases hb v hv with hb | ⟨s, k, hs, hqs, e⟩
    · exact Or.inl hb
    · refine Or.inr ⟨_, e, ?_⟩
      rw [idealDetail_top wt hM.1 (Q r) (hnd r).le, hsum, hqs]
      simp only [Int.cast_natCast]
      rw [abs_mul, abs_of_pos (by positivity : (0:ℝ) < (2:ℝ) ^ ((s : ℝ) * (1 / 2 - 1 / nm + g))), abs_neg, abs_mul,
        abs_mul, abs_mul, abs_mul, abs_pow (-1 : ℝ), abs_neg, abs_one, one_pow, one_mul,
        abs_of_pos (by positivity : (0:ℝ) < (2 ^ M * G) ^ (s - 1))]
      have e1 : ((2:ℝ) ^ M * G) ^ (s - 1) = (2:ℝ) ^ (((s : ℝ) - 1) * ((M : ℝ) + Real.logb 2 G)) := by
        have : (2:ℝ) ^ M * G = (2:ℝ) ^ ((M : ℝ) + Real.logb 2 G) := by
          rw [Real.rpow_add h2, Real.rpow_natCast, Real.rpow_logb h2 (by norm_num) hG]
        rw [this, ← Real.rpow_natCast, ← Real.rpow_mul h2.le]
        congr 1
        rw [Nat.cast_sub hs]; push_cast; ring
      rw [e1, show (s : ℝ) * ((M : ℝ) + Real.logb 2 G + 1 / 2 - 1 / nm + g)
        = (s : ℝ) * (1 / 2 - 1 / nm + g) + (((s : ℝ) - 1) * ((M : ℝ) + Real.logb 2 G)) + ((M : ℝ) + Real.logb 2 G) by ring,
        Real.rpow_add h2, Real.rpow_add h2, Real.rpow_neg h2.le]
      have : (0:ℝ) < (2:ℝ) ^ ((M : ℝ) + Real.logb 2 G) := by positivity
      field_simp
      rw [← hmu]; ring

/-- C77, end-to-end exactness.  Let the high-pass filter have exactly `M` vanishing moments and the low-pass filter the
gain `√2` (as all orthogonal wavelets), and let every realisation of the signal be a polynomial of degree `M` sampled at
`0..N-1`.  Then on every range `1 ≤ j1 < j2_eff`, whatever the weighting, the coefficient part of the result of
`mf_analysis_full` is exact: with `h = M + 1 - 1/normalization` (that is `M` for the default `normalization = 1`),
H = h, zeta(q) = q (h + gamint), c_1 = hmin = h + gamint, c_m = 0 for `m ≥ 2`, h(q) = h + gamint and D(q) = 1. -/
theorem C77_polynomials {N : ℕ} {Q : Fin R → ℝ[X]} {p : PExp} {wt : Wavelet} (hwt : wt.Valid) {M : ℕ}
    (hM : ExactMoments wt.dec_hi M) (hlo : wt.dec_lo.sum = Real.sqrt 2) (hQ : ∀ r, (Q r).degree = M) {j1 : ℤ}
    {j2 : Option ℝ} {g nm : ℝ} {weighted : Bool} {q : Option QArg} {n : ℕ} (hR : R ≠ 0) {w : WT R}
    (hw : waveletAnalysis (sampled N fun r t => (Q r).eval (t : ℝ)) p wt j1 j2 g nm weighted = .ok w)
    (h1 : 1 ≤ j1) (h12 : j1 < w.j2_eff) {d : MFData R}
    (hd : mfAnalysisFull (sampled N fun r t => (Q r).eval (t : ℝ)) j1 j2 nm g weighted wt p q n = .ok d) :
    d.dwt.structure_.H = (fun _ => Fl.fin (M + 1 - 1 / nm)) ∧
    d.dwt.structure_.zeta = (normQ q).map (fun e _ => Fl.fin (e * (M + 1 - 1 / nm + g))) ∧
    d.dwt.cumulants.log_cumulants = (List.range n).map (fun i _ => Fl.fin (if i = 0 then M + 1 - 1 / nm + g else 0)) ∧
    d.dwt.spectrum.hq = (normQ q).map (fun _ _ => Fl.fin (M + 1 - 1 / nm + g)) ∧
    d.dwt.spectrum.Dq = (normQ q).map (fun _ _ => Fl.fin 1) ∧
    d.dwt.hmin = (fun _ => Fl.fin (M + 1 - 1 / nm + g)) := by
  have hlog : Real.logb 2 (Real.sqrt 2) = 1 / 2 := by
    rw [Real.sqrt_eq_rpow, Real.logb_rpow (by norm_num) (by norm_num)]
  obtain ⟨K, hK, hmono⟩ := poly_monofractal hwt hM (Real.sqrt_pos.mpr (by norm_num)) hlo hQ hw
  rw [hlog, show ((M : ℝ) + 1 / 2 + 1 / 2 - 1 / nm + g) = M + 1 - 1 / nm + g by ring] at hmono
  obtain ⟨J, Jc, hJc, hj2, hreg, -⟩ := C03_regular hw
  have hrow : ∀ a ∈ w.wt_coefs.values, a.2 ≠ [] := by
    intro a ha h0
    obtain ⟨x, hx, -⟩ := (hmono a ha ⟨0, Nat.pos_of_ne_zero hR⟩).1
    rw [h0] at hx; cases hx
  have hq2 : (2:ℝ) ∈ normQ q := by
    by_contra hc
    rw [C48_needs_two _ _ _ _ _ _ _ _ _ _ _ hw h1 h12.le hc] at hd
    cases hd
  obtain ⟨s, k, sp, hm, e1, e2, e3, e4, r1, r2, r3, r4, r5, r6⟩ := C35_monofractal hreg hrow h1 h12
    (by rcases hJc with rfl | rfl <;> push_cast <;> omega) weighted true (normQ q) hq2 n K _ hK hmono
  have hb : IsBundle w.wt_coefs j1 w.j2_eff weighted n (normQ q) d.dwt := by
    unfold mfAnalysisFull at hd
    rw [hw] at hd
    simp only at hd
    rw [C47_bundle] at hd
    cases hl : w.wt_leaders with
    | none => rw [hl] at hd; exact hd.1
    | some l => rw [hl] at hd; exact hd.1
  obtain ⟨b1, b2, b3, hh, b4, b5⟩ := hb
  rw [e1] at b1; rw [e2] at b2; rw [e3] at b3; rw [e4] at b4
  cases b1; cases b2; cases b3; cases b4
  refine ⟨?_, r1, r3, r4, r5, by rw [← b5]; exact r6⟩
  rw [r2, coefs_gamint hw]
  funext r; congr 1; ring

/-- C77 for p-leaders (`p_exp = 2`): on the same signals, `eta_p` is exactly `2 (h + gamint)`; `mf_analysis_full` returns if
`h + gamint > 0` and raises TypeError otherwise. -/
theorem C77_pleaders {N : ℕ} {Q : Fin R → ℝ[X]} {wt : Wavelet} (hwt : wt.Valid) {M : ℕ}
    (hM : ExactMoments wt.dec_hi M) (hlo : wt.dec_lo.sum = Real.sqrt 2) (hQ : ∀ r, (Q r).degree = M) {j1 : ℤ}
    {j2 : Option ℝ} {g nm : ℝ} {weighted : Bool} {q : Option QArg} (hq : (2:ℝ) ∈ normQ q) {n : ℕ} (hR : R ≠ 0)
    (hnm : nm ≠ 0) {e : Expo} (he : e.val = 2) {w : WT R}
    (hw : waveletAnalysis (sampled N fun r t => (Q r).eval (t : ℝ)) .inf wt j1 j2 g nm weighted = .ok w)
    (h1 : 1 ≤ j1) (h12 : j1 < w.j2_eff) :
    (0 < M + 1 - 1 / nm + g →
      (∃ w2, waveletAnalysis (sampled N fun r t => (Q r).eval (t : ℝ)) (.num e) wt j1 j2 g nm weighted = .ok w2 ∧
        w2.eta_p = some fun _ => Fl.fin (2 * (M + 1 - 1 / nm + g))) ∧
      ∃ d v, mfAnalysisFull (sampled N fun r t => (Q r).eval (t : ℝ)) j1 j2 nm g weighted wt (.num e) q n = .ok d ∧
        d.lwt = some v) ∧
    (M + 1 - 1 / nm + g ≤ 0 →
      mfAnalysisFull (sampled N fun r t => (Q r).eval (t : ℝ)) j1 j2 nm g weighted wt (.num e) q n
        = .error .typeError) := by
  have hlog : Real.logb 2 (Real.sqrt 2) = 1 / 2 := by
    rw [Real.sqrt_eq_rpow, Real.logb_rpow (by norm_num) (by norm_num)]
  obtain ⟨K, hK, hmono⟩ := poly_monofractal hwt hM (Real.sqrt_pos.mpr (by norm_num)) hlo hQ hw
  rw [hlog, show ((M : ℝ) + 1 / 2 + 1 / 2 - 1 / nm + g) = M + 1 - 1 / nm + g by ring] at hmono
  obtain ⟨J, Jc, hJc, hj2, hreg, -⟩ := C03_regular hw
  have r0 : Fin R := ⟨0, Nat.pos_of_ne_zero hR⟩
  have hrow : ∀ a ∈ w.wt_coefs.values, a.2 ≠ [] := by
    intro a ha h0
    obtain ⟨x, hx, -⟩ := (hmono a ha r0).1
    rw [h0] at hx; cases hx
  have hN : (sampled N fun r t => (Q r).eval (t : ℝ)) ≠ [] := by
    intro h0
    have hlen : w.wt_coefs.values.length = Jc := hreg.length
    have hJ1 : 1 ≤ Jc := by rcases hJc with rfl | rfl <;> omega
    have hmem : w.wt_coefs.values[0]'(by omega) ∈ w.wt_coefs.values := List.getElem_mem _
    have h3 := (C05_shapes hw).1 _ hmem
    rw [h0] at h3
    simp only [List.length_nil, Nat.zero_div] at h3
    exact hrow _ hmem (List.length_eq_zero_iff.mp h3)
  obtain ⟨w', hw', hfull⟩ := C48_pleaders (sampled N fun r t => (Q r).eval (t : ℝ)) he wt j1 j2 g nm weighted q n hR hN hnm
  rw [hw] at hw'; cases hw'
  obtain ⟨S, z, hS, hz, hpos, hneg⟩ := hfull h1 h12.le hq
  obtain ⟨S', -, -, -, hS', -, -, -, hz', -⟩ := C35_monofractal hreg hrow h1 h12
    (by rcases hJc with rfl | rfl <;> push_cast <;> omega) weighted true [2] (by simp) n K _ hK hmono
  rw [hS] at hS'; cases hS'
  rw [hz] at hz'
  simp only [List.map_cons, List.map_nil, List.cons.injEq, and_true] at hz'
  subst hz'
  constructor
  · intro hp
    constructor
    · obtain ⟨z, hz1, -, hret⟩ := (C21_eta_p he hw).2 S hS
      rw [hz] at hz1
      simp only [List.cons.injEq, and_true] at hz1
      subst hz1
      obtain ⟨w2, hw2, he2, -⟩ := hret (Or.inr fun r => by simp only [Fl.le]; linarith)
      exact ⟨w2, hw2, he2⟩
    · obtain ⟨d, v, hd, -, hv, -⟩ := hpos fun r => ⟨by simp, by simp only [Fl.le]; linarith⟩
      exact ⟨d, v, hd, hv⟩
  · intro hp
    exact hneg (fun r => by simp) ⟨r0, by simp only [Fl.le]; linarith⟩

/-- The Haar filters with pywt's normalisation. -/
noncomputable def haarN : Wavelet :=
  { dec_lo := [(Real.sqrt 2)⁻¹, (Real.sqrt 2)⁻¹], dec_hi := [-(Real.sqrt 2)⁻¹, (Real.sqrt 2)⁻¹] }

theorem haarN_exact : haarN.Valid ∧ ExactMoments haarN.dec_hi 1 ∧ haarN.dec_lo.sum = Real.sqrt 2 := by
  have h : (Real.sqrt 2) ≠ 0 := (Real.sqrt_pos.mpr (by norm_num)).ne'
  refine ⟨⟨rfl, by simp [haarN]⟩, ⟨?_, ?_⟩, ?_⟩
  · intro i hi
    interval_cases i
    simp [haarN, Finset.sum_range_succ]
  · simp [haarN, Finset.sum_range_succ]
  · simp only [haarN, List.sum_cons, List.sum_nil, add_zero]
    field_simp
    rw [Real.sq_sqrt (by norm_num)]; norm_num

/-- The hypotheses of C77 are met: 64 samples of `3 t + 1` and of `5 - t` (two realisations), Haar, no leaders. -/
example : ∃ w d, waveletAnalysis (sampled 64 fun (r : Fin 2) t => (if r = 0 then C 3 * X + C 1 else C (-1) * X + C 5 : ℝ[X]).eval (t : ℝ))
      .none haarN 1 none (1/2) 1 true = .ok w ∧ 1 < w.j2_eff ∧
    mfAnalysisFull (sampled 64 fun (r : Fin 2) t => (if r = 0 then C 3 * X + C 1 else C (-1) * X + C 5 : ℝ[X]).eval (t : ℝ))
      1 none 1 (1/2) true haarN .none (some (.ndarray [2, -1])) 3 = .ok d ∧
    d.dwt.structure_.H = fun _ => Fl.fin 1 := by
  have hdeg : ∀ r : Fin 2, (if r = 0 then C 3 * X + C 1 else C (-1) * X + C 5 : ℝ[X]).degree = (1 : ℕ) := by
    intro r
    split
    · exact degree_linear (by norm_num)
    · exact degree_linear (by norm_num)
  have hlev : decompositionLevel 64 haarN = .ok ((4 : ℕ) : ℤ) :=
    (C01_integer 64 4 _ (by norm_num)).mpr (by simp [haarN])
  obtain ⟨w, hw, hh⟩ := C48_total (sampled 64 fun (r : Fin 2) t =>
      (if r = 0 then C 3 * X + C 1 else C (-1) * X + C 5 : ℝ[X]).eval (t : ℝ)) .none (Or.inl rfl)
    haarN 1 none (1/2) 1 true (some (.ndarray [2, -1])) 3 (by norm_num) (by simp [sampled]) (by norm_num)
  have hj : 2 ≤ w.j2_eff := admissible_j2 (j1 := 2) (by norm_num) haarN_exact.1 (Or.inl rfl) hlev (by norm_num) (by norm_num)
    (by simp) hw
  obtain ⟨d, hd, -⟩ := hh le_rfl (by omega) (by simp [normQ])
  refine ⟨w, d, hw, by omega, hd, ?_⟩
  rw [(C77_polynomials haarN_exact.1 haarN_exact.2.1 haarN_exact.2.2 hdeg (by norm_num) hw le_rfl (by omega) hd).1]
  funext r; congr 1; norm_num

/-- The hypotheses of C77 and C48 for p-leaders are met: 64 samples of `3 t + 1`, the Haar filters padded with zeros to
length 4, `p_exp = 2`: the call returns with `gamint = 0`, and raises TypeError with `gamint = -2`. -/
example : (∃ d v, mfAnalysisFull (sampled 64 fun (_ : Fin 1) t => (C 3 * X + C 1 : ℝ[X]).eval (t : ℝ)) 1 none 1 0 true
      { dec_lo := [0, (Real.sqrt 2)⁻¹, (Real.sqrt 2)⁻¹, 0], dec_hi := [0, -(Real.sqrt 2)⁻¹, (Real.sqrt 2)⁻¹, 0] }
      (.num (.int 2)) (some (.ndarray [2, -1])) 3 = .ok d ∧ d.lwt = some v) ∧
    mfAnalysisFull (sampled 64 fun (_ : Fin 1) t => (C 3 * X + C 1 : ℝ[X]).eval (t : ℝ)) 1 none 1 (-2) true
      { dec_lo := [0, (Real.sqrt 2)⁻¹, (Real.sqrt 2)⁻¹, 0], dec_hi := [0, -(Real.sqrt 2)⁻¹, (Real.sqrt 2)⁻¹, 0] }
      (.num (.int 2)) (some (.ndarray [2, -1])) 3 = .error .typeError := by
  set wt : Wavelet :=
    { dec_lo := [0, (Real.sqrt 2)⁻¹, (Real.sqrt 2)⁻¹, 0], dec_hi := [0, -(Real.sqrt 2)⁻¹, (Real.sqrt 2)⁻¹, 0] } with hwt
  have h : (Real.sqrt 2) ≠ 0 := (Real.sqrt_pos.mpr (by norm_num)).ne'
  have hv : wt.Valid := ⟨rfl, by simp [hwt]⟩
  have hM : ExactMoments wt.dec_hi 1 := by
    constructor
    · intro i hi
      interval_cases i
      simp [hwt, Finset.sum_range_succ]
    · simp [hwt, Finset.sum_range_succ, List.getD]
      rw [show -(Real.sqrt 2)⁻¹ + (Real.sqrt 2)⁻¹ * 2 = (Real.sqrt 2)⁻¹ by ring]
      exact inv_ne_zero h
  have hlo : wt.dec_lo.sum = Real.sqrt 2 := by
    simp only [hwt, List.sum_cons, List.sum_nil, add_zero, zero_add]
    field_simp
    rw [Real.sq_sqrt (by norm_num)]; norm_num
  have hlev : decompositionLevel 64 wt = .ok ((3 : ℕ) : ℤ) :=
    (C01_integer 64 3 _ (by norm_num)).mpr (by simp [hwt])
  have hdeg : ∀ r : Fin 1, (C 3 * X + C 1 : ℝ[X]).degree = (1 : ℕ) := fun _ => degree_linear (by norm_num)
  have key : ∀ g : ℝ, ∃ w : WT 1, waveletAnalysis (sampled 64 fun (_ : Fin 1) t => (C 3 * X + C 1 : ℝ[X]).eval (t : ℝ)) .inf wt 1 none g 1
      true = .ok w ∧ 1 < w.j2_eff := by
    intro g
    obtain ⟨w, hw⟩ := C05_total (sampled 64 fun (_ : Fin 1) t => (C 3 * X + C 1 : ℝ[X]).eval (t : ℝ)) .inf (Or.inr rfl) wt 1 none g 1
      true (by norm_num) (by simp [sampled]) (by norm_num)
    have hj : 2 ≤ w.j2_eff := admissible_j2 (j1 := 2) (by norm_num) hv (Or.inr (by simp [hwt])) hlev (by norm_num)
      (by norm_num) (by simp) hw
    exact ⟨w, hw, by omega⟩
  obtain ⟨w, hw, hj⟩ := key 0
  obtain ⟨w', hw', hj'⟩ := key (-2)
  exact ⟨((C77_pleaders hv hM hlo hdeg (by simp [normQ]) (by norm_num) (by norm_num) (by simp [Expo.val]) hw le_rfl hj).1
      (by norm_num)).2,
    (C77_pleaders hv hM hlo hdeg (by simp [normQ]) (by norm_num) (by norm_num) (by simp [Expo.val]) hw' le_rfl hj').2
      (by norm_num)⟩

end MFA
