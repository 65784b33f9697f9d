import Verif.Lemmas.Homogeneous
import Verif.Props.Structure
import Verif.Props.Full

/-! Properties C32, C34 and C50 at the level of `mf_analysis_full`: effect of `gamint` and of the amplitude of the signal. -/

namespace MFA

open Classical

variable {R : ℕ}

theorem smulArr_one (a : Arr R) : smulArr 1 a = a := by
  unfold smulArr mapArr
  conv_rhs => rw [← List.map_id a]
  apply List.map_congr_left
  intro row _
  funext r
  simp only [id]
  rw [show Fl.fin 1 = (1 : Fl) from rfl, one_mul]

theorem scalesUpTo_scaled (fm : Formalism) (g g' : ℝ) (f f' : ℕ → Arr R) (a : ℤ → ℝ) (K : ℕ) (ha : ∀ j, a j ≠ 0)
    (h : ∀ s, 1 ≤ s → f' s = smulArr (a s) (f s)) :
    scalesUpTo fm g' f' K = rescale a g' (scalesUpTo fm g f K) := by
  simp only [rescale, scaleBy, scalesUpTo, List.map_map, MRQ.mk.injEq, true_and]
  constructor
  · apply List.map_congr_left
    intro i _
    simp only [Function.comp_apply, Prod.mk.injEq, true_and]
    rw [h _ (by omega)]; rfl
  · apply List.map_congr_left
    intro i _
    simp only [Prod.mk.injEq, true_and]
    funext r
    rw [h _ (by omega), smulArr, col_mapArr, countNotNaN_map (Fl.fin_mul_isNaN (ha _))]

/-- Two successful calls, on `sig` with `gamint = g` and on `c * sig` with `gamint = g'`. -/
theorem wa_scaled {sig : Arr R} {p : PExp} {wt : Wavelet} {j1 : ℤ} {j2 : Option ℝ} {g g' nm : ℝ} {weighted : Bool}
    {c : ℝ} (hc : c ≠ 0) {w w' : WT R}
    (h : waveletAnalysis sig p wt j1 j2 g nm weighted = .ok w)
    (h' : waveletAnalysis (smulArr c sig) p wt j1 j2 g' nm weighted = .ok w') :
    w'.wt_coefs = rescale (ampFactor c g g') g' w.wt_coefs ∧ w'.j2_eff = w.j2_eff ∧
      (w'.warned = true ↔ w.warned = true) ∧
      (g' = g → p = .inf → w'.wt_leaders = w.wt_leaders.map (scaleBy fun _ => |c|)) := by
  have hcoef : ∀ K, scalesUpTo .coef g' (coefSeq (wparams wt g' nm) (smulArr c sig)) K
      = rescale (ampFactor c g g') g' (scalesUpTo .coef g (coefSeq (wparams wt g nm) sig) K) := fun K =>
    scalesUpTo_scaled _ _ _ _ _ _ _ (fun j => ampFactor_ne_zero hc j) (fun s _ => coefSeq_smul wt g g' nm c sig s)
  have hcs : ∀ n K, coefScales (wparams wt g' nm) (smulArr c sig) n K = coefScales (wparams wt g nm) sig n K := by
    intro n K
    unfold coefScales
    simp only [tooFew_coefSeq wt g g' nm hc sig]
  have hfb : ∀ {q : PExp} {n K K' : ℕ}, FirstBad n (fun j => ¬ tooFew (coefSeq (wparams wt g nm) sig j) ∧
        ¬ tooFew (leadSeq (wparams wt g nm) q sig j)) 1 K →
      FirstBad n (fun j => ¬ tooFew (coefSeq (wparams wt g' nm) (smulArr c sig) j) ∧
        ¬ tooFew (leadSeq (wparams wt g' nm) q (smulArr c sig) j)) 1 K' → K' = K := by
    intro q n K K' h1 h2
    refine (h2.congr (fun i _ => ?_)).unique h1
    rw [tooFew_coefSeq wt g g' nm hc, tooFew_leadSeq wt g g' nm hc q sig (by omega)]
  cases p with
  | none =>
    obtain ⟨ml, K, a1, a2, a3, a4⟩ := wa_none_inv h
    obtain ⟨ml', K', b1, b2, b3, b4⟩ := wa_none_inv h'
    rw [smulArr_length, a1] at b1
    obtain rfl := Except.ok.inj b1
    obtain rfl : K' = K := by
      refine (b2.congr (fun i _ => ?_)).unique a2
      rw [tooFew_coefSeq wt g g' nm hc]
    refine ⟨?_, by rw [a4, b4], b3.trans a3.symm, fun _ hp => by cases hp⟩
    rw [a4, b4]
    exact hcoef _
  | inf =>
    obtain ⟨ml, K, a1, a2, a3, a4⟩ := wa_inf_inv h
    obtain ⟨ml', K', b1, b2, b3, b4⟩ := wa_inf_inv h'
    rw [smulArr_length, a1] at b1
    obtain rfl := Except.ok.inj b1
    obtain rfl := hfb a2 b2
    refine ⟨?_, by rw [a4, b4], b3.trans a3.symm, ?_⟩
    · rw [a4, b4]
      simp only [hcs]
      exact hcoef _
    · rintro rfl -
      rw [a4, b4]
      simp only [Option.map_some, Option.some.injEq]
      exact scalesUpTo_scaled _ _ _ _ _ (fun _ => |c|) _ (fun _ => abs_ne_zero.mpr hc)
        (fun s hs => leadSeq_smul wt g' nm hc .inf trivial sig hs)
  | num e =>
    obtain ⟨-, ml, K, eta, a1, a2, a3, -, -, a4⟩ := wa_num_inv h
    obtain ⟨-, ml', K', eta', b1, b2, b3, -, -, b4⟩ := wa_num_inv h'
    rw [smulArr_length, a1] at b1
    obtain rfl := Except.ok.inj b1
    obtain rfl := hfb a2 b2
    refine ⟨?_, by rw [a4, b4], b3.trans a3.symm, fun _ hp => by cases hp⟩
    rw [a4, b4]
    simp only [hcs]
    exact hcoef _

theorem rescale_same (c : ℝ) (m : MRQ R) : rescale (ampFactor c m.gamint m.gamint) m.gamint m = scaleBy (fun _ => c) m := by
  unfold rescale
  have : ampFactor c m.gamint m.gamint = fun _ => c := funext fun j => ampFactor_same c m.gamint j
  rw [this]; rfl

theorem coefs_gamint {sig : Arr R} {p : PExp} {wt : Wavelet} {j1 : ℤ} {j2 : Option ℝ} {g nm : ℝ} {weighted : Bool}
    {w : WT R} (h : waveletAnalysis sig p wt j1 j2 g nm weighted = .ok w) : w.wt_coefs.gamint = g := by
  obtain ⟨ml, K, Kc, -, -, -, -, -, hc, -⟩ := wa_inv h
  rw [hc]; rfl

/-- The p-leaders of a multiplied signal. -/
theorem wa_num_scaled {sig : Arr R} {e : Expo} {wt : Wavelet} {j1 : ℤ} {j2 : Option ℝ} {g nm : ℝ} {weighted : Bool}
    {c : ℝ} (hc : c ≠ 0) {w w' : WT R}
    (h : waveletAnalysis sig (.num e) wt j1 j2 g nm weighted = .ok w)
    (h' : waveletAnalysis (smulArr c sig) (.num e) wt j1 j2 g nm weighted = .ok w')
    (h1 : 1 ≤ j1) (h12 : j1 ≤ w.j2_eff) :
    w'.eta_p = w.eta_p ∧ w'.wt_leaders = w.wt_leaders.map (scaleBy fun _ => |c|) := by
  obtain ⟨x1, x2, -, -⟩ := wa_scaled hc h h'
  obtain ⟨J, Jc, hJc, hj2, hreg, -⟩ := C03_regular h
  have hJ : w.j2_eff ≤ Jc := by rcases hJc with rfl | rfl <;> push_cast <;> omega
  obtain ⟨hp2, ml, K, eta, a1, a2, a3, a5, -, a4⟩ := wa_num_inv h
  obtain ⟨-, ml', K', eta', b1, b2, b3, b5, -, b4⟩ := wa_num_inv h'
  rw [smulArr_length, a1] at b1
  obtain rfl := Except.ok.inj b1
  obtain rfl : K' = K := by
    refine (b2.congr (fun i _ => ?_)).unique a2
    rw [tooFew_coefSeq wt g g nm hc, tooFew_leadSeq wt g g nm hc _ sig (by omega)]
  have ec : w.wt_coefs = scalesUpTo .coef g (coefSeq (wparams wt g nm) sig)
              (coefScales (wparams wt g nm) sig ml.toNat K') := by rw [a4]
  have ec' : w'.wt_coefs = scalesUpTo .coef g (coefSeq (wparams wt g nm) (smulArr c sig))
              (coefScales (wparams wt g nm) (smulArr c sig) ml.toNat K') := by rw [b4]
  have ej : w.j2_eff = j2Eff (finalLevel ml K') j2 := by rw [a4]
  rw [← ec, ← ej] at a5
  rw [← ec', ← ej, x1] at b5
  have hgm := coefs_gamint h
  have ha : ∀ j : ℤ, 1 ≤ j → j ≤ Jc → ampFactor c g g j ≠ 0 ∧
      Real.logb 2 |ampFactor c g g j| = Real.logb 2 |c| + 0 * (j : ℝ) := fun j _ _ => by
    rw [ampFactor_same]; exact ⟨hc, by simp⟩
  obtain ⟨s, s', e1, e2, l1, l2, z1, -⟩ := C32_structure_scaling hreg h1 h12 hJ weighted [e.val] (by simp [hp2]) _ _ _ ha
  have heta : eta' = eta := by
    unfold estimateEtaP at a5 b5
    rw [add_zero, hgm] at e2
    rw [e1] at a5
    rw [e2] at b5
    simp only at a5 b5
    cases hz : s.zeta with
    | nil => rw [hz] at l1; cases l1
    | cons z zs =>
      cases hz' : s'.zeta with
      | nil => rw [hz'] at l2; cases l2
      | cons z' zs' =>
        rw [hz] at a5; rw [hz'] at b5
        simp only at a5 b5
        have a6 := Except.ok.inj a5
        have b6 := Except.ok.inj b5
        rw [← a6, ← b6]
        funext r
        have := z1 0 (by simp) z z' (by rw [hz]; rfl) (by rw [hz']; rfl) r
        rw [this, mul_zero, show Fl.fin 0 = (0 : Fl) from rfl, add_zero]
  subst heta
  refine ⟨by rw [a4, b4], ?_⟩
  rw [a4, b4]
  simp only [Option.map_some, Option.some.injEq, scaleBy, scalesUpTo, List.map_map, MRQ.mk.injEq, true_and]
  have hnz : PExp.NonZero (.num e) := by show e.val ≠ 0; rw [hp2]; norm_num
  constructor
  · apply List.map_congr_left
    intro i _
    simp only [Function.comp_apply, Prod.mk.injEq, true_and]
    rw [corrSeq, leadSeq_smul wt g nm hc _ hnz sig (by omega), corrSeq]
    simp only [smulArr, mapArr, List.map_map]
    apply List.map_congr_left
    intro row _
    funext r
    simp only [Function.comp_apply]
    rw [mul_assoc]
  · apply List.map_congr_left
    intro i _
    simp only [Prod.mk.injEq, true_and]
    funext r
    rw [leadSeq_smul wt g nm hc _ hnz sig (by omega), smulArr, col_mapArr,
      countNotNaN_map (Fl.fin_mul_isNaN (abs_ne_zero.mpr hc))]

/-- When no realisation has a NaN eta, the p-leaders are a regular quantity. -/
theorem pleader_regular {sig : Arr R} {e : Expo} {wt : Wavelet} {j1 : ℤ} {j2 : Option ℝ} {g nm : ℝ} {weighted : Bool}
    {w : WT R} (h : waveletAnalysis sig (.num e) wt j1 j2 g nm weighted = .ok w) {l : MRQ R} (hl : w.wt_leaders = some l)
    (he : ∀ eta, w.eta_p = some eta → ∀ r, eta r ≠ Fl.nan) : ∃ J : ℕ, Regular l J ∧ w.j2_eff ≤ J := by
  obtain ⟨-, ml, K, eta, a1, a2, -, -, -, a4⟩ := wa_num_inv h
  obtain ⟨l', eta', c1, c2, c3, c4, c5⟩ := C04_pleaders h
  rw [hl] at c1; cases c1
  have h0 := he eta' c2
  have h1 := c4 h0
  have hlv : l.values = (scalesUpTo .pleader g (corrSeq eta e.val (leadSeq (wparams wt g nm) (.num e) sig)) K).values := by
    rw [a4] at hl; cases hl; rfl
  refine ⟨K, ⟨?_, ?_⟩, ?_⟩
  · rw [hlv]
    exact (scalesUpTo_regular .pleader g (corrSeq eta e.val (leadSeq (wparams wt g nm) (.num e) sig)) K).1
  · have hk : l.nj.map Prod.fst = l.values.map Prod.fst := c3
    have hnd : (l.nj.map Prod.fst).Nodup := by
      rw [hk, hlv]
      exact (scalesUpTo_regular .pleader g (corrSeq eta e.val (leadSeq (wparams wt g nm) (.num e) sig)) K).nodup
    apply List.ext_getElem
    · have := congrArg List.length hk
      simpa using this
    · intro i hi hi'
      have hiv : i < l.values.length := by simpa using hi'
      have hkey : (l.nj[i]).1 = (l.values[i]).1 := by
        have := List.getElem_of_eq hk (i := i) (by simpa using hi)
        simpa using this
      obtain ⟨nn, hn1, -, hn3⟩ := c5 l.values[i] (List.getElem_mem hiv)
      have hget := dictGet_of_nodup (fun p : ℤ × (Fin R → ℕ) => p.2) l.nj hnd l.nj[i] (List.getElem_mem hi)
      have e1 : (l.nj.map fun p => (p.1, p.2)) = l.nj := by simp
      rw [e1, hkey] at hget
      rw [hn1] at hget
      have e2 : nn = (l.nj[i]).2 := by simpa using hget
      rw [List.getElem_map]
      apply Prod.ext
      · exact hkey
      · show (l.nj[i]).2 = _
        rw [← e2]
        funext r
        exact (hn3 r).1 ⟨h0 r, (h1 r).1, (h1 r).2⟩
  · rw [a4]; exact j2Eff_le a2.1 j2

/-! ### gamint -/

/-- C32, C41, C50 (and the D(q) part of C34) at the level of `mf_analysis_full`: for the same signal (whatever its values)
analysed with `gamint = g` and `gamint = g'`, and a regression range `1 ≤ j1 ≤ j2_eff`, the coefficient part of the results
satisfies: the same H and D(q); zeta(q) shifted by `q (g' - g)`, c_1 and hmin by `g' - g`; the other log-cumulants equal. -/
theorem C32_full {sig : Arr R} {p : PExp} {wt : Wavelet} {j1 : ℤ} {j2 : Option ℝ} {g g' nm : ℝ} {weighted : Bool}
    {q : Option QArg} {n : ℕ} {w : WT R} (hw : waveletAnalysis sig p wt j1 j2 g nm weighted = .ok w)
    (h1 : 1 ≤ j1) (h12 : j1 ≤ w.j2_eff) {d d' : MFData R}
    (hd : mfAnalysisFull sig j1 j2 nm g weighted wt p q n = .ok d)
    (hd' : mfAnalysisFull sig j1 j2 nm g' weighted wt p q n = .ok d') :
    d'.dwt.structure_.H = d.dwt.structure_.H ∧ d'.dwt.spectrum.Dq = d.dwt.spectrum.Dq ∧
    (∀ (i : ℕ) (z z' : Row R) (qi : ℝ), (normQ q)[i]? = some qi → d.dwt.structure_.zeta[i]? = some z →
      d'.dwt.structure_.zeta[i]? = some z' → ∀ r, z' r = z r + Fl.fin (qi * (g' - g))) ∧
    (∀ (i : ℕ) (z z' : Row R), d.dwt.cumulants.log_cumulants[i]? = some z → d'.dwt.cumulants.log_cumulants[i]? = some z' →
      ∀ r, z' r = if i = 0 then z r + Fl.fin (g' - g) else z r) ∧
    ∀ r, d'.dwt.hmin r = d.dwt.hmin r + Fl.fin (g' - g) := by
  unfold mfAnalysisFull at hd hd'
  rw [hw] at hd
  cases hw' : waveletAnalysis sig p wt j1 j2 g' nm weighted with
  | error e => rw [hw'] at hd'; cases hd'
  | ok w' =>
    rw [hw'] at hd'
    simp only at hd hd'
    have hs := hw'
    rw [← smulArr_one sig] at hs
    obtain ⟨x1, x2, -, -⟩ := wa_scaled one_ne_zero hw hs
    obtain ⟨J, Jc, hJc, hj2, hreg, -⟩ := C03_regular hw
    have hJ : w.j2_eff ≤ Jc := by rcases hJc with rfl | rfl <;> push_cast <;> omega
    rw [C47_bundle] at hd hd'
    obtain ⟨⟨d1, d2, d3, hm, d4, d5⟩, -⟩ := hd
    obtain ⟨⟨d1', d2', d3', hm', d4', d5'⟩, -⟩ := hd'
    rw [x1, x2] at d1' d2' d3' d4'
    have hgm := coefs_gamint hw
    have ha : ∀ j : ℤ, 1 ≤ j → j ≤ Jc → ampFactor 1 g g' j ≠ 0 ∧
        Real.logb 2 |ampFactor 1 g g' j| = 0 + (g' - g) * (j : ℝ) := fun j _ _ => by
      refine ⟨ampFactor_ne_zero one_ne_zero _, ?_⟩
      rw [ampFactor, one_mul, abs_of_pos (Real.rpow_pos_of_pos (by norm_num) _),
        Real.logb_rpow (by norm_num) (by norm_num), zero_add]
    have hq2 := structFn_mem_two d1
    have hqn : normQ q ≠ [] := by intro h; rw [h] at hq2; cases hq2
    have hgg : w.wt_coefs.gamint + (g' - g) = g' := by rw [hgm]; ring
    have hrow : ∀ p ∈ w.wt_coefs.values, p.2 ≠ [] ∨ R = 0 := by
      intro a ha'
      by_cases hR : R = 0
      · exact Or.inr hR
      · exact Or.inl (rows_ne_nil hR hw _ (Or.inl rfl) a ha')
    obtain ⟨s, s', e1, e2, l1, l2, z1, z2⟩ := C32_structure_scaling hreg h1 h12 hJ weighted (normQ q) hq2 _ _ _ ha
    rw [hgg] at e2
    obtain ⟨k, k', e3, e4, l3, l4, z3⟩ := C41_cumulants_scaling hreg h1 h12 hJ weighted n _ _ _ ha g'
    obtain ⟨t, t', e5, e6, -, -, -, z4, -⟩ := C34_spectrum_scaling hreg h1 h12 hJ weighted (normQ q) hqn _ _ _ ha g'
    rw [d1] at e1; rw [d1'] at e2; rw [d2] at e3; rw [d2'] at e4; rw [d3] at e5; rw [d3'] at e6
    cases e1; cases e2; cases e3; cases e4; cases e5; cases e6
    refine ⟨funext z2, z4, ?_, z3, ?_⟩
    · intro i z z' qi hqi hz hz'
      have hi : i < (normQ q).length := by
        by_contra hc
        rw [List.getElem?_eq_none (by omega)] at hqi; cases hqi
      rw [List.getElem?_eq_getElem hi] at hqi
      cases hqi
      exact z1 i hi z z' hz hz'
    · intro r
      have hR : R ≠ 0 := fun h => by subst h; exact r.elim0
      obtain ⟨y, y', e7, e8, z6⟩ := C50_hmin_scaling hreg (fun p hp => (hrow p hp).resolve_right hR) h1 h12 hJ
        weighted true _ _ _ ha g'
      rw [d4] at e7; rw [d4'] at e8
      cases e7; cases e8
      rw [← d5, ← d5']
      exact (z6 r).1

/-- C50: choosing `gamint = -hmin + eps`, where `hmin` is that of the analysis with `gamint = 0`, gives exactly `eps`. -/
theorem C50_full {sig : Arr R} {p : PExp} {wt : Wavelet} {j1 : ℤ} {j2 : Option ℝ} {nm : ℝ} {weighted : Bool}
    {q : Option QArg} {n : ℕ} {w : WT R} (hw : waveletAnalysis sig p wt j1 j2 0 nm weighted = .ok w)
    (h1 : 1 ≤ j1) (h12 : j1 ≤ w.j2_eff) {d d' : MFData R} {r : Fin R} {h ε : ℝ}
    (hd : mfAnalysisFull sig j1 j2 nm 0 weighted wt p q n = .ok d) (hh : d.dwt.hmin r = Fl.fin h)
    (hd' : mfAnalysisFull sig j1 j2 nm (-h + ε) weighted wt p q n = .ok d') : d'.dwt.hmin r = Fl.fin ε := by
  obtain ⟨-, -, -, -, h5⟩ := C32_full hw h1 h12 hd hd'
  rw [h5 r, hh, Fl.fin_add]
  congr 1; ring

/-! ### Amplitude -/

/-- The two results have the same zeta, H, log-cumulants, D(q) and hmin, and the same h(q) at the exponents allowed by the
data `m` of the first one: no infinity, and no zero or (for `q > 0`) not only zeros in any column. -/
def SameEstimates (m : MRQ R) (q : List ℝ) (v v' : MFVar R) : Prop :=
  v'.structure_.zeta = v.structure_.zeta ∧ v'.structure_.H = v.structure_.H ∧
  v'.cumulants.log_cumulants = v.cumulants.log_cumulants ∧ v'.spectrum.Dq = v.spectrum.Dq ∧ v'.hmin = v.hmin ∧
  ∀ (i : ℕ) (hi : i < q.length), NonzeroData m ∨ (0 < q[i] ∧ NonvanishingData m) →
    v'.spectrum.hq[i]? = v.spectrum.hq[i]?

theorem bundle_same {m : MRQ R} {J : ℕ} (hm : Regular m J) {j1 j2 : ℤ} (h1 : 1 ≤ j1) (h12 : j1 ≤ j2) (h2 : j2 ≤ J)
    (hrow : R ≠ 0 → ∀ p ∈ m.values, p.2 ≠ []) {c : ℝ} (hc : c ≠ 0) {weighted : Bool} {n : ℕ} {q : List ℝ} {v v' : MFVar R}
    (hv : IsBundle m j1 j2 weighted n q v) (hv' : IsBundle (scaleBy (fun _ => c) m) j1 j2 weighted n q v') :
    SameEstimates m q v v' := by
  obtain ⟨d1, d2, d3, hm1, d4, d5⟩ := hv
  obtain ⟨d1', d2', d3', hm1', d4', d5'⟩ := hv'
  have hq2 := structFn_mem_two d1
  by_cases hR : R = 0
  · subst hR
    have hqn : q ≠ [] := by rintro rfl; cases hq2
    have ha : ∀ j : ℤ, 1 ≤ j → j ≤ J → (fun _ : ℤ => c) j ≠ 0 ∧
        Real.logb 2 |(fun _ : ℤ => c) j| = Real.logb 2 |c| + 0 * (j : ℝ) := fun j _ _ => ⟨hc, by simp⟩
    obtain ⟨s, s', e1, e2, l1, l2, z1, z2⟩ := C32_structure_scaling hm h1 h12 h2 weighted q hq2 _ _ _ ha
    obtain ⟨k, k', e3, e4, l3, l4, z3⟩ := C41_cumulants_scaling hm h1 h12 h2 weighted n _ _ _ ha m.gamint
    obtain ⟨t, t', e5, e6, l5, l6, l7, z4, z5⟩ := C34_spectrum_scaling hm h1 h12 h2 weighted q hqn _ _ _ ha m.gamint
    rw [add_zero] at e2
    have e0 : rescale (fun _ => c) m.gamint m = scaleBy (fun _ => c) m := rfl
    rw [e0] at e2 e4 e6
    rw [d1] at e1; rw [d1'] at e2; rw [d2] at e3; rw [d2'] at e4; rw [d3] at e5; rw [d3'] at e6
    cases e1; cases e2; cases e3; cases e4; cases e5; cases e6
    have hsub : ∀ a b : Arr 0, a.length = b.length → a = b := by
      intro a b h
      apply List.ext_getElem h
      intro i _ _
      funext r; exact r.elim0
    refine ⟨hsub _ _ (by omega), funext z2, hsub _ _ (by omega), z4, by funext r; exact r.elim0, ?_⟩
    intro i _ _
    rw [hsub v'.spectrum.hq v.spectrum.hq (by omega)]
  · obtain ⟨s, s', k, k', t, t', h, h', e1, e2, e3, e4, e5, e6, e7, e8, z1, z2, z3, z4, z5, z6⟩ :=
      C34_amplitude_invariance hm (hrow hR) h1 h12 h2 weighted true q hq2 n c hc
    rw [d1] at e1; rw [d1'] at e2; rw [d2] at e3; rw [d2'] at e4; rw [d3] at e5; rw [d3'] at e6
    rw [d4] at e7; rw [d4'] at e8
    cases e1; cases e2; cases e3; cases e4; cases e5; cases e6; cases e7; cases e8
    exact ⟨z1, z2, z3, z4, by rw [← d5, ← d5', z5], z6⟩

/-- C34 at the level of `mf_analysis_full`: multiplying the signal (whatever its values) by a non-zero constant changes
neither the estimates on the coefficients nor those on the leaders (for p-leaders: when no realisation has a NaN eta_p). -/
theorem C34_full {sig : Arr R} {p : PExp} {wt : Wavelet} {j1 : ℤ} {j2 : Option ℝ} {g nm : ℝ} {weighted : Bool}
    {q : Option QArg} {n : ℕ} {c : ℝ} (hc : c ≠ 0) {w : WT R}
    (hw : waveletAnalysis sig p wt j1 j2 g nm weighted = .ok w)
    (h1 : 1 ≤ j1) (h12 : j1 ≤ w.j2_eff) {d d' : MFData R}
    (hd : mfAnalysisFull sig j1 j2 nm g weighted wt p q n = .ok d)
    (hd' : mfAnalysisFull (smulArr c sig) j1 j2 nm g weighted wt p q n = .ok d') :
    SameEstimates w.wt_coefs (normQ q) d.dwt d'.dwt ∧ (d'.lwt.isSome ↔ d.lwt.isSome) ∧
    ∀ l v v', w.wt_leaders = some l → d.lwt = some v → d'.lwt = some v' →
      (∀ eta, w.eta_p = some eta → ∀ r, eta r ≠ Fl.nan) → SameEstimates l (normQ q) v v' := by
  unfold mfAnalysisFull at hd hd'
  rw [hw] at hd
  cases hw' : waveletAnalysis (smulArr c sig) p wt j1 j2 g nm weighted with
  | error e => rw [hw'] at hd'; cases hd'
  | ok w' =>
    rw [hw'] at hd'
    simp only at hd hd'
    obtain ⟨x1, x2, -, x4⟩ := wa_scaled hc hw hw'
    have hgm := coefs_gamint hw
    have hx1 : w'.wt_coefs = scaleBy (fun _ => c) w.wt_coefs := by
      rw [x1]
      have := rescale_same c w.wt_coefs
      rwa [hgm] at this
    have x5 : w'.wt_leaders = w.wt_leaders.map (scaleBy fun _ => |c|) := by
      cases p with
      | none =>
        obtain ⟨_, _, _, _, _, a4⟩ := wa_none_inv hw
        obtain ⟨_, _, _, _, _, b4⟩ := wa_none_inv hw'
        rw [a4, b4]; rfl
      | inf => exact x4 rfl rfl
      | num e => exact (wa_num_scaled hc hw hw' h1 h12).2
    obtain ⟨J, Jc, hJc, hj2, hreg, hregl⟩ := C03_regular hw
    have hJ : w.j2_eff ≤ Jc := by rcases hJc with rfl | rfl <;> push_cast <;> omega
    rw [C47_bundle] at hd hd'
    obtain ⟨hb, hl⟩ := hd
    obtain ⟨hb', hl'⟩ := hd'
    rw [hx1, x2] at hb'
    refine ⟨bundle_same hreg h1 h12 hJ (fun hR => rows_ne_nil hR hw _ (Or.inl rfl)) hc hb hb', ?_, ?_⟩
    · rw [x5] at hl'
      cases hwl : w.wt_leaders with
      | none => rw [hwl] at hl hl'; simp only [Option.map_none] at hl hl'; rw [hl, hl']
      | some l =>
        rw [hwl] at hl hl'; simp only [Option.map_some] at hl hl'
        obtain ⟨v, hv, -⟩ := hl
        obtain ⟨v', hv', -⟩ := hl'
        rw [hv, hv']; simp
    · intro l v v' hwl hv hv' heta
      rw [x5, hwl] at hl'
      rw [hwl] at hl
      simp only [Option.map_some] at hl hl'
      obtain ⟨v1, hv1, hbl⟩ := hl
      obtain ⟨v1', hv1', hbl'⟩ := hl'
      rw [hv] at hv1; rw [hv'] at hv1'
      cases hv1; cases hv1'
      rw [x2] at hbl'
      have hrl : ∃ J : ℕ, Regular l J ∧ w.j2_eff ≤ J := by
        cases p with
        | none =>
          obtain ⟨_, _, _, _, _, a4⟩ := wa_none_inv hw
          rw [a4] at hwl; cases hwl
        | inf => exact ⟨J, hregl l hwl rfl, hj2⟩
        | num e => exact pleader_regular hw hwl heta
      obtain ⟨J', hrl, hj2'⟩ := hrl
      refine bundle_same hrl h1 h12 hj2' ?_ (abs_ne_zero.mpr hc) hbl hbl'
      intro hR
      cases p with
      | none =>
        obtain ⟨_, _, _, _, _, a4⟩ := wa_none_inv hw
        rw [a4] at hwl; cases hwl
      | inf => exact rows_ne_nil hR hw l (Or.inr ⟨hwl, rfl⟩)
      | num e =>
        obtain ⟨l', eta, c1, c2, c3, c4, c5⟩ := C04_pleaders hw
        rw [hwl] at c1; cases c1
        intro a ha hnil
        obtain ⟨nn, -, hn2, hn3⟩ := c5 a ha
        have h0 := heta eta c2
        have h3 := (hn3 ⟨0, Nat.pos_of_ne_zero hR⟩).1 ⟨h0 _, (c4 h0 _).1, (c4 h0 _).2⟩
        have := hn2 ⟨0, Nat.pos_of_ne_zero hR⟩
        rw [h3, hnil] at this
        simp [col, countNotNaN, dropNaN] at this

/-- The hypotheses of C32, C34 and C50 are met: 100 samples of `t²`, two realisations, four-tap filters, leaders, two values
of gamint and the amplitude -3. -/
example : ∃ w d d' d'', waveletAnalysis (sampled 100 (fun (_ : Fin 2) (t : ℤ) => (t : ℝ) ^ 2)) .inf
      { dec_lo := [1, 1, 1, 1], dec_hi := [1, -1, -1, 1] } 2 (some (5/2)) 0 1 true = .ok w ∧ 2 ≤ w.j2_eff ∧
    mfAnalysisFull (sampled 100 (fun (_ : Fin 2) (t : ℤ) => (t : ℝ) ^ 2)) 2 (some (5/2)) 1 0 true
      { dec_lo := [1, 1, 1, 1], dec_hi := [1, -1, -1, 1] } .inf (some (.ndarray [2, -1])) 3 = .ok d ∧
    mfAnalysisFull (sampled 100 (fun (_ : Fin 2) (t : ℤ) => (t : ℝ) ^ 2)) 2 (some (5/2)) 1 (3/2) true
      { dec_lo := [1, 1, 1, 1], dec_hi := [1, -1, -1, 1] } .inf (some (.ndarray [2, -1])) 3 = .ok d' ∧
    mfAnalysisFull (smulArr (-3) (sampled 100 (fun (_ : Fin 2) (t : ℤ) => (t : ℝ) ^ 2))) 2 (some (5/2)) 1 0 true
      { dec_lo := [1, 1, 1, 1], dec_hi := [1, -1, -1, 1] } .inf (some (.ndarray [2, -1])) 3 = .ok d'' := by
  have hlev : decompositionLevel 100 { dec_lo := [1, 1, 1, 1], dec_hi := [1, -1, -1, 1] } = .ok ((4 : ℕ) : ℤ) :=
    (C01_integer 100 4 _ (by norm_num)).mpr (by norm_num)
  have hb : ∀ b : ℝ, (some (5/2) : Option ℝ) = some b → ((2:ℤ) : ℝ) ≤ b := by
    rintro b hb
    cases hb; norm_num
  have hn := sampled_ne_nil_of_level (fun (_ : Fin 2) (t : ℤ) => (t : ℝ) ^ 2) hlev
  have key : ∀ g : ℝ, ∃ w d, waveletAnalysis (sampled 100 (fun (_ : Fin 2) (t : ℤ) => (t : ℝ) ^ 2)) .inf
      { dec_lo := [1, 1, 1, 1], dec_hi := [1, -1, -1, 1] } 2 (some (5/2)) g 1 true = .ok w ∧ 2 ≤ w.j2_eff ∧
      mfAnalysisFull (sampled 100 (fun (_ : Fin 2) (t : ℤ) => (t : ℝ) ^ 2)) 2 (some (5/2)) 1 g true
      { dec_lo := [1, 1, 1, 1], dec_hi := [1, -1, -1, 1] } .inf (some (.ndarray [2, -1])) 3 = .ok d := by
    intro g
    obtain ⟨w, hw, hh⟩ := C48_total (sampled 100 (fun (_ : Fin 2) (t : ℤ) => (t : ℝ) ^ 2)) .inf (Or.inr rfl)
      { dec_lo := [1, 1, 1, 1], dec_hi := [1, -1, -1, 1] } 2 (some (5/2)) g 1 true (some (.ndarray [2, -1])) 3
      (by norm_num) hn (by norm_num)
    have h12 := admissible_j2 (by norm_num) ⟨rfl, by simp⟩ (Or.inr (by simp)) hlev (by norm_num) (by norm_num) hb hw
    obtain ⟨d, hd, -⟩ := hh (by norm_num) h12 (by simp [normQ])
    exact ⟨w, d, hw, h12, hd⟩
  obtain ⟨w, d, hw, h12, hd⟩ := key 0
  obtain ⟨_, d', -, -, hd'⟩ := key (3/2)
  obtain ⟨w3, hw3, hh⟩ := C48_total (smulArr (-3) (sampled 100 (fun (_ : Fin 2) (t : ℤ) => (t : ℝ) ^ 2))) .inf (Or.inr rfl)
      { dec_lo := [1, 1, 1, 1], dec_hi := [1, -1, -1, 1] } 2 (some (5/2)) 0 1 true (some (.ndarray [2, -1])) 3
      (by norm_num) (by simpa [smulArr, mapArr] using hn) (by norm_num)
  obtain ⟨-, x2, -, -⟩ := wa_scaled (by norm_num) hw hw3
  obtain ⟨d3, hd3, -⟩ := hh (by norm_num) (by rw [x2]; exact h12) (by simp [normQ])
  exact ⟨w, d, d', d3, hw, h12, hd, hd', hd3⟩

end MFA
