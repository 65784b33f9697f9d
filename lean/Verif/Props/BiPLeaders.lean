import Verif.Props.BiAnalysis
import Verif.Props.FullPLeaders
import Verif.Props.PLeaders

/-! Property C145: `bivariate_analysis_full` with a finite `p_exp`. -/

namespace MFA

open Classical

/-- An estimate of eta for which the p-leaders can be corrected: a number (or `inf`) that is positive. -/
def EtaOk (z : Fl) : Prop := z ≠ Fl.nan ∧ ¬ Fl.le z (Fl.fin 0)

theorem EtaOk.ne {z : Fl} (h : EtaOk z) : z ≠ Fl.nan ∧ z ≠ Fl.fin 0 ∧ z ≠ Fl.ninf := by
  refine ⟨h.1, fun e => h.2 ?_, fun e => h.2 ?_⟩
  · rw [e]; simp [Fl.le]
  · rw [e]; simp [Fl.le]

theorem corr_isNaN {z : Fl} (h : EtaOk z) (p : ℝ) {j : ℕ} (hj : 1 ≤ j) (x : Fl) :
    (x * zpjCorr z p j).isNaN = x.isNaN := by
  obtain ⟨c, hc, e⟩ := zpjCorr_pos h.ne p hj
  rw [e, mul_comm x]
  exact Fl.fin_mul_isNaN hc x

theorem corr_struct {eta : Row 1} (h : EtaOk (eta 0)) (p : ℝ) (fm : Formalism) (g : ℝ) (f : ℕ → Arr 1) (K : ℕ) :
    { scalesUpTo fm g f K with values := (scalesUpTo fm g (corrSeq eta p f) K).values } = scalesUpTo fm g (corrSeq eta p f) K := by
  simp only [scalesUpTo, MRQ.mk.injEq, true_and]
  apply List.map_congr_left
  intro i _
  simp only [Prod.mk.injEq, true_and]
  funext r
  have hr : r = 0 := Subsingleton.elim _ _
  subst hr
  have : col (corrSeq eta p f (i + 1)) 0 = (col (f (i + 1)) 0).map fun x => x * zpjCorr (eta 0) p (i + 1) := by
    simp only [col, corrSeq, List.map_map]; rfl
  rw [this, countNotNaN_map (fun x => corr_isNaN h p (by omega) x)]

theorem corr_ent_nan {eta : Row 1} (h : EtaOk (eta 0)) (p : ℝ) (f : ℕ → Arr 1) {s : ℕ} (hs : 1 ≤ s) (k : ℕ) (r : Fin 1) :
    ent (corrSeq eta p f s) k r = Fl.nan ↔ ent (f s) k r = Fl.nan := by
  have hr : r = 0 := Subsingleton.elim _ _
  subst hr
  unfold ent corrSeq
  rw [List.getElem?_map]
  cases (f s)[k]? with
  | none => simp
  | some row =>
    simp only [Option.map_some]
    rw [← Fl.isNaN_iff, ← Fl.isNaN_iff, corr_isNaN h p hs]

/-- For two finite signals of the same length and `p_exp = 2`, when both estimates of eta are positive, coefficients and p-leaders
are paired and NaN at the same places, and the two transforms have the same range of scales. -/
theorem wa_paired_num {N : ℕ} {x y : Fin 1 → ℤ → ℝ} {wt : Wavelet} (hwt : wt.Valid) {e : Expo} {j1 : ℤ} {j2 : Option ℝ} {g nm : ℝ}
    {weighted : Bool} {w1 w2 : WT 1} (h1 : waveletAnalysis (sampled N x) (.num e) wt j1 j2 g nm weighted = .ok w1)
    (h2 : waveletAnalysis (sampled N y) (.num e) wt j1 j2 g nm weighted = .ok w2)
    (he1 : ∀ eta, w1.eta_p = some eta → EtaOk (eta 0)) (he2 : ∀ eta, w2.eta_p = some eta → EtaOk (eta 0)) :
    ∃ (J Jc : ℕ) (l1 l2 : MRQ 1), w1.j2_eff = w2.j2_eff ∧ w1.j2_eff ≤ (J : ℤ) ∧ J ≤ Jc ∧
      w1.wt_leaders = some l1 ∧ w2.wt_leaders = some l2 ∧ l1.formalism = .pleader ∧
      Paired w1.wt_coefs w2.wt_coefs Jc ∧ SameNaN w1.wt_coefs w2.wt_coefs ∧ Paired l1 l2 J ∧ SameNaN l1 l2 := by
  obtain ⟨ml, K, Kc, a1, a2, a3, a4, a5, -, a7, a8⟩ := wa_finite hwt (by norm_num) h1
  obtain ⟨ml', K', Kc', b1, b2, b3, b4, b5, -, b7, b8⟩ := wa_finite hwt (by norm_num) h2
  rw [a1] at b1
  obtain rfl : ml = ml' := Except.ok.inj b1
  obtain rfl : K = K' := a2.unique b2
  obtain rfl : Kc = Kc' := by rw [a3, b3]
  simp only at a8 b8
  obtain ⟨-, eta1, q1, a8⟩ := a8
  obtain ⟨-, eta2, q2, b8⟩ := b8
  have k1 := he1 eta1 q1
  have k2 := he2 eta2 q2
  rw [corr_struct k1] at a8
  rw [corr_struct k2] at b8
  refine ⟨K, Kc, _, _, by rw [a7, b7], by rw [a7]; exact j2Eff_le a2.1 j2, ?_, a8, b8, rfl, ?_⟩
  · rw [a3]; split <;> omega
  · rw [a5, b5]
    have hc := scalesUpTo_paired (fm := .coef) (g := g) (f := coefSeq (wparams wt g nm) (sampled N x))
      (f' := coefSeq (wparams wt g nm) (sampled N y)) (K := Kc)
      (fun s hs _ => by rw [coefSeq_length _ _ _ hs, coefSeq_length _ _ _ hs, sampled_length, sampled_length])
      (fun s hs hsK k hk r => by
        rw [coefSeq_length _ _ _ hs, sampled_length] at hk
        have hr : ∀ i < s, 2 * (wt.dec_hi.length + 1) ≤ N / 2 ^ i := fun i hi => level_room a1 (by omega)
        rw [coef_nan_iff wt hwt g nm x r hs hr hk, coef_nan_iff wt hwt g nm y r hs hr hk])
    have hl := scalesUpTo_paired (fm := .pleader) (g := g)
      (f := corrSeq eta1 e.val (leadSeq (wparams wt g nm) (.num e) (sampled N x)))
      (f' := corrSeq eta2 e.val (leadSeq (wparams wt g nm) (.num e) (sampled N y))) (K := K)
      (fun s hs _ => by
        rw [corrSeq, corrSeq, List.length_map, List.length_map, leadSeq_length, leadSeq_length, sampled_length, sampled_length])
      (fun s hs hsK k hk r => by
        rw [corrSeq, List.length_map, leadSeq_length, sampled_length] at hk
        have := a2.1
        have hr : ∀ i < s, 2 * (wt.dec_hi.length + 1) ≤ N / 2 ^ i := fun i hi => level_room a1 (by omega)
        rw [corr_ent_nan k1 _ _ hs, corr_ent_nan k2 _ _ hs,
          lead_nan_iff wt hwt g nm (.num e) x r hs hr hk, lead_nan_iff wt hwt g nm (.num e) y r hs hr hk])
    exact ⟨hc.1, hc.2, hl.1, hl.2⟩

/-- C145: with a finite `p_exp` other than 2, `bivariate_analysis_full` raises on every input. -/
theorem C145_only_p_two {R : ℕ} (s1 s2 : Arr R) (j1 : ℤ) (j2 : Option ℝ) (nm g : ℝ) (weighted : Bool) (wt : Wavelet)
    {e : Expo} (he : e.val ≠ 2) (q1 q2 : Option QArg) (n : ℕ) :
    ∃ x, bivariateAnalysisFull s1 s2 j1 j2 nm g weighted wt (.num e) q1 q2 n = .error x := by
  obtain ⟨x, hx⟩ := C20_only_p_two s1 e he wt j1 j2 g nm weighted
  exact ⟨x, by unfold bivariateAnalysisFull; rw [hx]⟩

/-- C145: with a finite `p_exp` other than 0 and 2, and a first signal of sampled real numbers with `1 ≤ j1 < L` and `j1 ≤ j2`, the
exception is IndexError, whatever the second signal. -/
theorem C145_index_error {R : ℕ} (hR : R ≠ 0) {N : ℕ} (x : Fin R → ℤ → ℝ) (s2 : Arr R) (wt : Wavelet) (hwt : wt.Valid)
    (hF : 4 ≤ wt.dec_hi.length) (j1 : ℤ) (j2 : Option ℝ) (g nm : ℝ) (hnm : nm ≠ 0) (weighted : Bool) (q1 q2 : Option QArg) (n : ℕ)
    {e : Expo} (he0 : e.val ≠ 0) (he : e.val ≠ 2) {L : ℤ} (hL : decompositionLevel N wt = .ok L) (h1 : 1 ≤ j1) (h1L : j1 < L)
    (h12 : ∀ b, j2 = some b → (j1 : ℝ) ≤ b) :
    bivariateAnalysisFull (sampled N x) s2 j1 j2 nm g weighted wt (.num e) q1 q2 n = .error .indexError := by
  obtain ⟨w, hw⟩ := C05_total (sampled N x) .inf (Or.inr rfl) wt j1 j2 g nm weighted hR (sampled_ne_nil_of_level x hL) hnm
  have hj := admissible_j2 hR hwt (Or.inr hF) hL h1 h1L h12 hw
  have := C20_raises_index_error he0 he hw h1 hj
  unfold bivariateAnalysisFull
  rw [this]

/-- C145: with `p_exp = 2` the two signals have an estimate of eta, the scaling exponent at `q = 2` of their coefficients.  When both
are positive, `bivariate_analysis_full` returns, and its marginals, for coefficients and p-leaders, are the results of
`mf_analysis_full` on each signal.  When the estimate of one of them is a number that is not positive, the call raises TypeError
(for the second signal: provided that the first estimate is positive). -/
theorem C145_p_leaders {N : ℕ} (x y : Fin 1 → ℤ → ℝ) (wt : Wavelet) (hwt : wt.Valid) (hF : 4 ≤ wt.dec_hi.length) (j1 : ℤ)
    (j2 : Option ℝ) (g nm : ℝ) (hnm : nm ≠ 0) (weighted : Bool) (q1 q2 : List ℝ) (hn1 : q1.Nodup) (hn2 : q2.Nodup)
    (hq1 : (0:ℝ) ∈ q1 ∧ (1:ℝ) ∈ q1 ∧ (2:ℝ) ∈ q1) (hq2 : (0:ℝ) ∈ q2 ∧ (1:ℝ) ∈ q2 ∧ (2:ℝ) ∈ q2) (n : ℕ) (hn : 2 ≤ n) {L : ℤ}
    (hL : decompositionLevel N wt = .ok L) (h1 : 1 ≤ j1) (h1L : j1 < L) (h12 : ∀ b, j2 = some b → (j1 : ℝ) ≤ b)
    {e : Expo} (he : e.val = 2) :
    ∃ w1 w2 s1 s2 z1 z2, waveletAnalysis (sampled N x) .inf wt j1 j2 g nm weighted = .ok w1 ∧
      waveletAnalysis (sampled N y) .inf wt j1 j2 g nm weighted = .ok w2 ∧
      StructFn.make w1.wt_coefs (.ndarray [2]) j1 w1.j2_eff weighted = .ok s1 ∧ s1.zeta = [z1] ∧
      StructFn.make w2.wt_coefs (.ndarray [2]) j1 w2.j2_eff weighted = .ok s2 ∧ s2.zeta = [z2] ∧
      (EtaOk (z1 0) → EtaOk (z2 0) → ∃ d l d1 l1 d2 l2,
        bivariateAnalysisFull (sampled N x) (sampled N y) j1 j2 nm g weighted wt (.num e) (some (.ndarray q1)) (some (.ndarray q2)) n
          = .ok (d, l) ∧
        mfAnalysisFull (sampled N x) j1 j2 nm g weighted wt (.num e) (some (.ndarray q1)) n = .ok ⟨d1, some l1⟩ ∧
        mfAnalysisFull (sampled N y) j1 j2 nm g weighted wt (.num e) (some (.ndarray q2)) n = .ok ⟨d2, some l2⟩ ∧
        Marginals n q1 q2 d d1 d2 ∧ Marginals n q1 q2 l l1 l2) ∧
      ((z1 0 ≠ Fl.nan ∧ Fl.le (z1 0) (Fl.fin 0)) ∨ (EtaOk (z1 0) ∧ z2 0 ≠ Fl.nan ∧ Fl.le (z2 0) (Fl.fin 0)) →
        bivariateAnalysisFull (sampled N x) (sampled N y) j1 j2 nm g weighted wt (.num e) (some (.ndarray q1))
          (some (.ndarray q2)) n = .error .typeError) := by
  have ex : ∀ (u : Fin 1 → ℤ → ℝ) (q : List ℝ), (2:ℝ) ∈ q → ∃ w s z,
      waveletAnalysis (sampled N u) .inf wt j1 j2 g nm weighted = .ok w ∧ j1 ≤ w.j2_eff ∧
      StructFn.make w.wt_coefs (.ndarray [2]) j1 w.j2_eff weighted = .ok s ∧ s.zeta = [z] ∧
      (EtaOk (z 0) → ∃ w' dd ll leads, waveletAnalysis (sampled N u) (.num e) wt j1 j2 g nm weighted = .ok w' ∧
        w'.eta_p = some z ∧ w'.j2_eff = w.j2_eff ∧ w'.wt_leaders = some leads ∧
        mfAnalysisFull (sampled N u) j1 j2 nm g weighted wt (.num e) (some (.ndarray q)) n = .ok ⟨dd, some ll⟩ ∧
        IsBundle w'.wt_coefs j1 w'.j2_eff weighted n q dd ∧ IsBundle leads j1 w'.j2_eff weighted n q ll) ∧
      (z 0 ≠ Fl.nan ∧ Fl.le (z 0) (Fl.fin 0) →
        waveletAnalysis (sampled N u) (.num e) wt j1 j2 g nm weighted = .error .typeError) := by
    intro u q hq
    obtain ⟨w, hw, hfull⟩ := C48_pleaders (sampled N u) he wt j1 j2 g nm weighted (some (.ndarray q)) n (by norm_num)
      (sampled_ne_nil_of_level u hL) hnm
    have hj := admissible_j2 (by norm_num) hwt (Or.inr hF) hL h1 h1L h12 hw
    obtain ⟨s, z, hs, hz, hok, -⟩ := hfull h1 hj hq
    obtain ⟨z', hz', herr, hok'⟩ := (C21_eta_p he hw).2 s hs
    rw [hz] at hz'
    obtain rfl : z = z' := (List.cons.inj hz').1
    refine ⟨w, s, z, hw, hj, hs, hz, fun hk => ?_, fun hk => ?_⟩
    · have h0 : ∀ r : Fin 1, z r ≠ Fl.nan ∧ ¬ Fl.le (z r) (Fl.fin 0) := fun r => by
        rw [Subsingleton.elim r 0]; exact hk
      obtain ⟨w', hw', heta, hco, hje, -⟩ := hok' (Or.inr fun r => (h0 r).2)
      obtain ⟨d, v, hd, -, hv, -⟩ := hok h0
      obtain ⟨l, eta, hl, -⟩ := C04_pleaders hw'
      have hd' := hd
      unfold mfAnalysisFull at hd'
      simp only [hw', C47_bundle, hl] at hd'
      obtain ⟨hb, v', hv', hb'⟩ := hd'
      rw [hv] at hv'; cases hv'
      refine ⟨w', d.dwt, v, l, hw', heta, hje, hl, ?_, hb, hb'⟩
      rw [hd, ← hv]
    · refine herr (fun r => ?_) ⟨0, hk.2⟩
      rw [Subsingleton.elim r 0]; exact hk.1
  obtain ⟨w1, s1, z1, hw1, hj1, hs1, hz1, ok1, bad1⟩ := ex x q1 hq1.2.2
  obtain ⟨w2, s2, z2, hw2, hj2, hs2, hz2, ok2, bad2⟩ := ex y q2 hq2.2.2
  refine ⟨w1, w2, s1, s2, z1, z2, hw1, hw2, hs1, hz1, hs2, hz2, fun k1 k2 => ?_, fun hbad => ?_⟩
  · obtain ⟨u1, d1, l1, m1, hu1, he1, hje1, hm1, hf1, hd1, hl1⟩ := ok1 k1
    obtain ⟨u2, d2, l2, m2, hu2, he2, hje2, hm2, hf2, hd2, hl2⟩ := ok2 k2
    obtain ⟨J, Jc, a1, a2, hee, hJ, hJc, ha1, ha2, -, hpc, hsc, hpl, hsl⟩ := wa_paired_num hwt hu1 hu2
      (fun eta h => by rw [he1] at h; cases h; exact k1) (fun eta h => by rw [he2] at h; cases h; exact k2)
    rw [hm1] at ha1; rw [hm2] at ha2
    cases ha1; cases ha2
    rw [← hee] at hd2 hl2
    have hj : j1 ≤ u1.j2_eff := by rw [hje1]; exact hj1
    obtain ⟨d, hd, hdm⟩ := biVar_marginals hpc hsc h1 hj (by omega) weighted n hn q1 q2 hn1 hn2 hq1 hq2 hd1 hd2
    obtain ⟨l, hl, hlm⟩ := biVar_marginals hpl hsl h1 hj hJ weighted n hn q1 q2 hn1 hn2 hq1 hq2 hl1 hl2
    refine ⟨d, l, d1, l1, d2, l2, ?_, hf1, hf2, hdm, hlm⟩
    unfold bivariateAnalysisFull bivariateAnalysis
    simp only [hu1, hu2, hm1, hm2, ← hee, min_self, hd, hl]
  · unfold bivariateAnalysisFull
    rcases hbad with hb | ⟨k1, hb⟩
    · rw [bad1 hb]
    · obtain ⟨u1, d1, l1, m1, hu1, -⟩ := ok1 k1
      rw [hu1, bad2 hb]

/-- The hypotheses are met: for 64 samples of the ramp (twice) the estimates of eta are 4, and the bivariate analysis with
`p_exp = 2` returns. -/
example : ∃ d l, bivariateAnalysisFull (sampled 64 ramp) (sampled 64 ramp) 1 none 2 0 false haar4 (.num (.int 2))
    (some (.ndarray [0, 1, 2, 3])) (some (.ndarray [2, 1, 0])) 3 = .ok (d, l) := by
  obtain ⟨w, w', hw, hw', heta, -, -⟩ := ramp_pleaders
  have hlev : decompositionLevel 64 haar4 = .ok ((3 : ℕ) : ℤ) :=
    (C01_integer 64 3 haar4 (by norm_num)).mpr (by simp [haar4])
  have he : (Expo.int 2).val = 2 := by simp [Expo.val]
  obtain ⟨w1, w2, s1, s2, z1, z2, hw1, hw2, hs1, hz1, hs2, hz2, hok, -⟩ := C145_p_leaders ramp ramp haar4 haar4_valid
    (by simp [haar4]) 1 none 0 2 (by norm_num) false [0, 1, 2, 3] [2, 1, 0] (by norm_num) (by norm_num) (by norm_num)
    (by norm_num) 3 (by norm_num) hlev (by norm_num) (by norm_num) (by simp) he
  rw [hw] at hw1 hw2
  cases hw1; cases hw2
  rw [hs1] at hs2
  cases hs2
  rw [hz1] at hz2
  cases hz2
  have hk : EtaOk (z1 0) := by
    obtain ⟨z, hz, hbad, hgood⟩ := (C21_eta_p he hw).2 s1 hs1
    rw [hz1] at hz
    obtain rfl : z1 = z := (List.cons.inj hz).1
    by_cases h : (∃ r, z1 r = Fl.nan) ∨ ∀ r, ¬ Fl.le (z1 r) (Fl.fin 0)
    · obtain ⟨u, hu, hue, -⟩ := hgood h
      rw [hw'] at hu
      cases hu
      rw [heta] at hue
      have : z1 = fun _ => Fl.fin 4 := (Option.some.inj hue).symm
      rw [this]
      exact ⟨by simp, by simp [Fl.le]⟩
    · push Not at h
      have := hbad h.1 h.2
      rw [hw'] at this
      cases this
  obtain ⟨d, l, -, -, -, -, h, -⟩ := hok hk hk
  exact ⟨d, l, h⟩

end MFA
