import Verif.Spec.Pooled
import Verif.Props.BiAnalysis

/-! Property C146: the bivariate analysis of a quantity with itself (the same object twice). -/

namespace MFA

open Classical

variable {R : ℕ} {m : MRQ R} {J : ℕ} {j1 j2 : ℤ}

theorem pooled_regular (hm : Regular m J) : Regular (pooled m) J := by
  refine ⟨?_, ?_⟩
  · rw [← hm.1]; simp [pooled, List.map_map, Function.comp_def]
  · simp only [pooled, List.map_map]
    apply List.map_congr_left
    intro p _
    simp only [Function.comp, Prod.mk.injEq, true_and]
    funext r
    rw [Subsingleton.elim r 0]

theorem self_paired {m : MRQ 1} (hm : Regular m J) : Paired m m J :=
  ⟨hm, hm, rfl, rfl, rfl, List.forall₂_same.2 fun _ _ => rfl⟩

theorem self_sameNaN {m : MRQ 1} : SameNaN m m := by
  intro k p p' hp hp' i x y hx hy
  rw [hp] at hp'
  cases hp'
  rw [hx] at hy
  cases hy
  rfl

theorem flat_pooledArr (a : Arr R) : flat (pooledArr a) = flat a := by
  rw [flat_one, pooledArr, col, List.map_map, flat]
  exact List.map_id _

theorem pairScales_self {R : ℕ} {m : MRQ R} (hm : Regular m J) :
    pairScales m m = .ok (m.values.map fun p => (flat p.2).zip (flat p.2)) := by
  unfold pairScales
  have : m.values = m.values.map id := by simp
  conv_lhs => rw [this]
  rw [List.map_id]
  have := mapE_map_ok (fun p : ℤ × Arr R => match getKey m.values p.1 with
    | .error e => .error e
    | .ok v => pairUp p.2 v) id (fun p => (flat p.2).zip (flat p.2)) m.values (fun q hq => by
      simp only [id]
      rw [hm.getValue hq]
      exact pairUp_eq rfl)
  rwa [List.map_id] at this

theorem pairScales_pooled (hm : Regular m J) : pairScales (pooled m) (pooled m) = pairScales m m := by
  rw [pairScales_self hm, pairScales_self (pooled_regular hm)]
  simp only [pooled, List.map_map, Function.comp_def, flat_pooledArr]

theorem njEq_same (a b : Dict (Fin R → ℕ)) : njEq true a b = .ok true := by
  unfold njEq; rw [if_pos rfl]

theorem biWeights_flat {R R' : ℕ} (a : Dict (Fin R → ℕ)) (b : Dict (Fin R' → ℕ)) (j1 j2 : ℤ) :
    biWeights a j1 j2 false = biWeights b j1 j2 false := by
  unfold biWeights; simp

/-- C146: without weights, the structure functions, exponents and coherence of a quantity with itself are those of all its
realisations pooled in one column (exceptions included). -/
theorem C146_pooled_structure (hm : Regular m J) (q1 q2 : QArg) :
    BiStructFn.make true m m j1 j2 q1 q2 false = BiStructFn.make true (pooled m) (pooled m) j1 j2 q1 q2 false := by
  unfold BiStructFn.make
  have hk : (pooled m).values.keys = m.values.keys := by simp [pooled, Dict.keys, List.map_map, Function.comp_def]
  simp only [njEq_same, pairScales_pooled hm, biWeights_flat (pooled m).nj m.nj, hk]
  rfl

theorem biCum_pooled (hm : Regular m J) (n : ℕ) :
    BiCumulants.make true m m n j1 j2 false = match BiCumulants.make true (pooled m) (pooled m) n j1 j2 false with
      | .error e => .error e
      | .ok b => .ok { formalism := b.formalism, nj := m.nj, j := b.j, n_cumul := b.n_cumul, j1 := b.j1, j2 := b.j2, weighted := b.weighted
                       values := b.values, log_cumulants := b.log_cumulants, slope := b.slope, intercept := b.intercept
                       RHO_MF := b.RHO_MF, rho_mf := b.rho_mf } := by
  have hk : (pooled m).values.keys = m.values.keys := by simp [pooled, Dict.keys, List.map_map, Function.comp_def]
  have hf : (pooled m).formalism = m.formalism := rfl
  unfold BiCumulants.make
  simp only [njEq_same, pairScales_pooled hm, biWeights_flat (pooled m).nj m.nj, hk, hf]
  rw [if_neg (by simp), if_neg (by simp), pairScales_self hm]
  simp only
  cases biWeights m.nj j1 j2 false with
  | error e => rfl
  | ok w =>
    simp only
    split
    · rfl
    · by_cases hc : m.formalism = .coef
      · simp only [if_pos hc]
      · by_cases hn : n < 2
        · simp only [if_neg hc, if_pos hn]
        · simp only [if_neg hc, if_neg hn]

/-- C146: without weights, `BiCumulants` of a quantity of several realisations with itself returns, and everything it holds is that of
all realisations pooled in one column; in particular the log-cumulants of orders `(i, 0)` and `(0, i)` are those of `Cumulants` on
the pooled column. -/
theorem C146_pooled_cumulants (hm : Regular m J) (h1 : 1 ≤ j1) (h12 : j1 ≤ j2) (h2 : j2 ≤ J) (n : ℕ)
    (hn : m.formalism = .coef ∨ 2 ≤ n) :
    ∃ b b' c, BiCumulants.make true m m n j1 j2 false = .ok b ∧
      BiCumulants.make true (pooled m) (pooled m) n j1 j2 false = .ok b' ∧ Cumulants.make (pooled m) n j1 j2 false = .ok c ∧
      b.j = b'.j ∧ b.values = b'.values ∧ b.log_cumulants = b'.log_cumulants ∧ b.slope = b'.slope ∧ b.intercept = b'.intercept ∧
      b.RHO_MF = b'.RHO_MF ∧ b.rho_mf = b'.rho_mf ∧
      ∀ i < n, (c.log_cumulants[i]?.map fun row => row 0) = some (b.log_cumulants (i + 1) 0) ∧
        (c.log_cumulants[i]?.map fun row => row 0) = some (b.log_cumulants 0 (i + 1)) := by
  have hp := self_paired (pooled_regular hm)
  obtain ⟨b0, c1, c2, hb0, hc1, hc2, hcm⟩ := C64_marginals hp self_sameNaN h1 h12 h2 false n hn
  have hb : BiCumulants.make true (pooled m) (pooled m) n j1 j2 false = .ok b0 := by
    rw [← hb0]
    unfold BiCumulants.make
    rw [hp.njEq true, hp.njEq false]
  rw [hc1] at hc2
  cases hc2
  have hB := biCum_pooled (j1 := j1) (j2 := j2) hm n
  rw [hb] at hB
  refine ⟨_, b0, c1, hB, hb, hc1, rfl, rfl, rfl, rfl, rfl, rfl, rfl, fun i hi => ⟨(hcm i hi).2.2.1, (hcm i hi).2.2.2.1⟩⟩

/-- C146: with weights, `BiCumulants` and `BiStructureFunction` of a quantity of two or more realisations with itself raise
ValueError: the slopes of all realisations do not fit. -/
theorem C146_weighted_raises (hR : 2 ≤ R) (hm : Regular m J) (h1 : 1 ≤ j1) (h12 : j1 ≤ j2) (h2 : j2 ≤ J) (n : ℕ) :
    BiCumulants.make true m m n j1 j2 true = .error .valueError ∧
    ∀ q1 q2 : List ℝ, q1.Nodup → q2.Nodup → (0:ℝ) ∈ q1 ∧ (1:ℝ) ∈ q1 ∧ (2:ℝ) ∈ q1 → (0:ℝ) ∈ q2 ∧ (1:ℝ) ∈ q2 ∧ (2:ℝ) ∈ q2 →
      BiStructFn.make true m m j1 j2 (.ndarray q1) (.ndarray q2) true = .error .valueError := by
  have hw : biWeights m.nj j1 j2 true = .error .valueError := by
    have := hm.weights h1 h12 h2 true
    unfold regWeights getNjInterv at this
    rw [if_pos rfl] at this
    have hne := hm.sub_ne_nil h1 h12 h2
    unfold biWeights
    rw [if_pos rfl]
    cases hg : getNjRows m.nj j1 j2 with
    | error e => rw [hg] at this; cases this
    | ok l =>
      cases l with
      | nil => rw [hg] at this; cases this
      | cons a l =>
        simp only
        rw [dif_neg (by omega)]
  constructor
  · unfold BiCumulants.make
    rw [if_neg (by simp)]
    simp only [njEq_same, pairScales_self hm, hw]
  · intro q1 q2 d1 d2 a1 a2
    have hcoh := bsCoherence_ok d1 d2 a1.1 a1.2.1 a1.2.2 a2.1 a2.2.1 a2.2.2
      (m.values.map fun p => (flat p.2).zip (flat p.2))
    unfold BiStructFn.make
    rw [if_neg (by simp), if_neg (by simp)]
    have e1 : ¬ ((QArg.ndarray q1).expos = [] ∨ (QArg.ndarray q2).expos = []) := by
      simp only [expos_ndarray, List.map_eq_nil_iff]
      rintro (h | h)
      · rw [h] at a1; simp at a1
      · rw [h] at a2; simp at a2
    simp only [njEq_same, if_neg e1, pairScales_self hm, hcoh, hw]

/-- C146: `bivariate_analysis(w, w)` on the transform of a signal of two or more realisations, with weights and a valid range of
scales, raises ValueError. -/
theorem C146_analysis_weighted_raises (hR : 2 ≤ R) {sig : Arr R} {p : PExp} {wt : Wavelet} {j0 : ℤ} {j2 : Option ℝ} {g nm : ℝ} {wd : Bool}
    {w : WT R} (hw : waveletAnalysis sig p wt j0 j2 g nm wd = .ok w) (h1 : 1 ≤ j1) (h12 : j1 ≤ w.j2_eff) (n : ℕ) (q1 q2 : Option QArg) :
    bivariateAnalysis true w w j1 true n q1 q2 = .error .valueError := by
  obtain ⟨J, Jc, hJc, hj2, hc, -⟩ := C03_regular hw
  have hj : w.j2_eff ≤ Jc := by rcases hJc with rfl | rfl <;> push_cast <;> omega
  have := (C146_weighted_raises hR hc h1 h12 hj n).1
  unfold bivariateAnalysis biVar
  simp only [min_self, this]

/-- C146: `bivariate_analysis(w, w)` without weights, on the transform of a signal with `p_exp=inf`, a valid range of scales,
`n_cumul ≥ 2` and arrays of distinct exponents containing 0, 1, 2, returns, for any number of realisations: both parts are the results on
the pooled column. -/
theorem C146_analysis {sig : Arr R} {wt : Wavelet} {j0 : ℤ} {j2 : Option ℝ} {g nm : ℝ} {wd : Bool}
    {w : WT R} (hw : waveletAnalysis sig .inf wt j0 j2 g nm wd = .ok w) (h1 : 1 ≤ j1) (h12 : j1 ≤ w.j2_eff) (n : ℕ) (hn : 2 ≤ n)
    (q1 q2 : List ℝ) (hn1 : q1.Nodup) (hn2 : q2.Nodup)
    (hq1 : (0:ℝ) ∈ q1 ∧ (1:ℝ) ∈ q1 ∧ (2:ℝ) ∈ q1) (hq2 : (0:ℝ) ∈ q2 ∧ (1:ℝ) ∈ q2 ∧ (2:ℝ) ∈ q2) :
    ∃ (d l : MFBiVar R) (leads : MRQ R), w.wt_leaders = some leads ∧
      bivariateAnalysis true w w j1 false n (some (.ndarray q1)) (some (.ndarray q2)) = .ok (d, l) ∧
      ∀ p ∈ [(w.wt_coefs, d), (leads, l)], ∃ b' : BiCumulants 1,
        BiCumulants.make true (pooled p.1) (pooled p.1) n j1 w.j2_eff false = .ok b' ∧
        p.2.cumulants.values = b'.values ∧ p.2.cumulants.log_cumulants = b'.log_cumulants ∧ p.2.cumulants.RHO_MF = b'.RHO_MF ∧
        p.2.cumulants.rho_mf = b'.rho_mf ∧
        BiStructFn.make true (pooled p.1) (pooled p.1) j1 w.j2_eff (.ndarray q1) (.ndarray q2) false = .ok p.2.structure_ := by
  obtain ⟨J, Jc, hJc, hj2, hc, hl⟩ := C03_regular hw
  have hj : w.j2_eff ≤ Jc := by rcases hJc with rfl | rfl <;> push_cast <;> omega
  have key : ∀ (m : MRQ R) (J : ℕ), Regular m J → w.j2_eff ≤ J → ∃ v : MFBiVar R,
      biVar true m m j1 w.j2_eff false n (some (.ndarray q1)) (some (.ndarray q2)) = .ok v ∧ ∃ b' : BiCumulants 1,
        BiCumulants.make true (pooled m) (pooled m) n j1 w.j2_eff false = .ok b' ∧
        v.cumulants.values = b'.values ∧ v.cumulants.log_cumulants = b'.log_cumulants ∧ v.cumulants.RHO_MF = b'.RHO_MF ∧
        v.cumulants.rho_mf = b'.rho_mf ∧
        BiStructFn.make true (pooled m) (pooled m) j1 w.j2_eff (.ndarray q1) (.ndarray q2) false = .ok v.structure_ := by
    intro m J hm hJ
    obtain ⟨b, b', -, hb, hb', -, -, e1, e2, -, -, e3, e4, -⟩ := C146_pooled_cumulants hm h1 h12 hJ n (Or.inr hn)
    obtain ⟨s, hs⟩ : ∃ s, BiStructFn.make true (pooled m) (pooled m) j1 w.j2_eff (.ndarray q1) (.ndarray q2) false = .ok s :=
      ⟨_, (self_paired (pooled_regular hm)).biStructFn h1 h12 hJ false true
        (bsCoherence_ok hn1 hn2 hq1.1 hq1.2.1 hq1.2.2 hq2.1 hq2.2.1 hq2.2.2 _) (List.ne_nil_of_mem hq1.1) (List.ne_nil_of_mem hq2.1)⟩
    refine ⟨⟨s, b⟩, ?_, b', hb', e1, e2, e3, e4, hs⟩
    unfold biVar
    simp only [hb, C146_pooled_structure hm, hs]
  obtain ⟨_, _, _, -, -, -, -, -, -, -, -, hle⟩ := wa_inv hw
  obtain ⟨d, hd, hd'⟩ := key _ _ hc hj
  obtain ⟨l, hll, hl'⟩ := key _ _ (hl _ hle.1 rfl) hj2
  refine ⟨d, l, _, hle.1, ?_, ?_⟩
  · unfold bivariateAnalysis
    simp only [min_self, hd, hle.1, hll]
  · intro p hp
    simp only [List.mem_cons, List.not_mem_nil, or_false] at hp
    rcases hp with rfl | rfl
    · exact hd'
    · exact hl'

/-! ### Correlations of a quantity with itself -/

theorem cov_diag (l : List ℝ) : cov (l.map fun t => (t, t)) = variance l := by
  unfold cov variance centralMoment
  simp only [List.map_map, Function.comp_def, List.length_map, List.map_id']
  congr 2
  apply List.map_congr_left
  intro t _
  ring

theorem variance_pos {l : List ℝ} {a b : ℝ} (ha : a ∈ l) (hb : b ∈ l) (hab : a ≠ b) : 0 < variance l := by
  refine lt_of_le_of_ne (variance_nonneg l) fun h => hab ?_
  unfold variance centralMoment at h
  have hl : (l.length : ℝ) ≠ 0 := by
    have : l ≠ [] := List.ne_nil_of_mem ha
    simpa using this
  have hs : (l.map fun t => (t - mean l) ^ 2).sum = 0 := by
    rcases div_eq_zero_iff.1 h.symm with h | h
    · exact h
    · exact absurd h hl
  have key : ∀ x ∈ l, (x - mean l) ^ 2 ≤ 0 := by
    intro x hx
    rw [← hs]
    exact List.single_le_sum (by
      intro y hy
      obtain ⟨z, -, rfl⟩ := List.mem_map.1 hy
      positivity) _ (List.mem_map.2 ⟨x, hx, rfl⟩)
  have e1 : a - mean l = 0 := pow_eq_zero_iff two_ne_zero |>.1 (le_antisymm (key a ha) (sq_nonneg _))
  have e2 : b - mean l = 0 := pow_eq_zero_iff two_ne_zero |>.1 (le_antisymm (key b hb) (sq_nonneg _))
  linarith

/-- The real values of a column. -/
noncomputable def realVals (c : List Fl) : List ℝ := c.filterMap fun x => match x with
  | Fl.fin t => some t
  | _ => none

theorem jointVals_self (c : List Fl) : jointVals c c = (realVals c).map fun t => (t, t) := by
  unfold jointVals realVals
  induction c with
  | nil => rfl
  | cons x c ih =>
    rw [List.zip_cons_cons, List.filterMap_cons, List.filterMap_cons]
    cases x <;> simp [ih]

theorem jointLogs_self (c : List Fl) :
    jointLogs c c = ((realVals c).map fun t => Real.log |t|).map fun t => (t, t) := by
  unfold jointLogs
  rw [jointVals_self, List.map_map, List.map_map]
  rfl

/-- C146: for leaders of one realisation analysed with themselves (finite nonzero values, besides NaNs, at least one at each scale),
`C_11 = C_20 = C_02` at every scale, `c_11 = c_20 = c_02`, `RHO_MF` is 1 at every scale where the log-leaders are not all equal, and
`rho_mf` is 1 when `c_20 < 0`, -1 when `c_20 > 0`. -/
theorem C146_self_correlation {m : MRQ 1} (hm : Regular m J)
    (hd : ∀ p ∈ m.values, ∀ x ∈ p.2, x 0 = Fl.nan ∨ ∃ t : ℝ, t ≠ 0 ∧ x 0 = Fl.fin t)
    (hne : ∀ p ∈ m.values, ∃ x ∈ p.2, x 0 ≠ Fl.nan) (h1 : 1 ≤ j1) (h12 : j1 ≤ j2) (h2 : j2 ≤ J) (same weighted : Bool) (n : ℕ)
    (hn : 2 ≤ n) (hf : m.formalism ≠ .coef) :
    ∃ b, BiCumulants.make same m m n j1 j2 weighted = .ok b ∧
      b.values 1 1 = b.values 2 0 ∧ b.values 0 2 = b.values 2 0 ∧
      b.log_cumulants 1 1 = b.log_cumulants 2 0 ∧ b.log_cumulants 0 2 = b.log_cumulants 2 0 ∧
      (∃ rho, b.RHO_MF = some rho ∧ rho.length = J ∧ ∀ (k : ℕ) p, m.values[k]? = some p →
        (∃ x ∈ p.2, ∃ y ∈ p.2, ∃ s t : ℝ, x 0 = Fl.fin s ∧ y 0 = Fl.fin t ∧ |s| ≠ |t|) → rho[k]? = some (Fl.fin 1)) ∧
      ∀ c : ℝ, b.log_cumulants 2 0 = Fl.fin c → (c < 0 → b.rho_mf = some (Fl.fin 1)) ∧ (0 < c → b.rho_mf = some (Fl.fin (-1))) := by
  have hp := self_paired hm
  have hcol : ∀ p ∈ m.values, realVals (col p.2 0) ≠ [] := by
    intro p hpm
    obtain ⟨x, hx, hxn⟩ := hne p hpm
    rcases hd p hpm x hx with h | ⟨t, -, h⟩
    · exact absurd h hxn
    · have : t ∈ realVals (col p.2 0) := by
        unfold realVals
        rw [List.mem_filterMap]
        exact ⟨Fl.fin t, by rw [← h]; exact List.mem_map.2 ⟨x, hx, rfl⟩, rfl⟩
      exact List.ne_nil_of_mem this
  have hz : NoZero m := by
    intro p hpm x hx h0
    rcases hd p hpm x hx with h | ⟨t, ht, h⟩
    · rw [h] at h0; cases h0
    · rw [h] at h0; exact ht (Fl.fin.inj h0)
  have hfin : ∀ p ∈ m.values, ∀ x ∈ p.2, x 0 = Fl.nan ∨ ∃ t : ℝ, x 0 = Fl.fin t := fun p hpm x hx =>
    (hd p hpm x hx).imp id fun ⟨t, _, h⟩ => ⟨t, h⟩
  have hj : JointFinite m m := by
    refine ⟨hfin, hfin, fun k p p' hk hk' => ?_⟩
    rw [hk] at hk'
    cases hk'
    rw [jointVals_self]
    simpa using hcol p (List.mem_of_getElem? hk)
  have hcov := fun q (hq : q ∈ biList m m) => hj.at hp hz hz hq
  have hdiag : ∀ q ∈ biList m m, q.2 = q.1 := by
    intro q hq
    obtain ⟨k, hk⟩ := List.getElem?_of_mem hq
    have := List.getElem?_zip_eq_some.1 hk
    rw [this.1] at this
    exact (Option.some.inj this.2).symm
  have hvals : ∀ q ∈ biList m m, bcAt n 1 1 q = Fl.fin (variance ((realVals (col q.1.2 0)).map fun t => Real.log |t|)) ∧
      bcAt n 2 0 q = Fl.fin (variance ((realVals (col q.1.2 0)).map fun t => Real.log |t|)) ∧
      bcAt n 0 2 q = Fl.fin (variance ((realVals (col q.1.2 0)).map fun t => Real.log |t|)) := by
    intro q hq
    obtain ⟨hJ, hne'⟩ := hcov q hq
    rw [hdiag q hq] at hJ hne'
    set l := (realVals (col q.1.2 0)).map fun t => Real.log |t| with hl
    rw [jointLogs_self, ← hl] at hJ hne'
    have hln : l ≠ [] := by simpa using hne'
    have e1 : ((l.map fun t => (t, t)).map Prod.fst) = l := by simp [List.map_map, Function.comp_def]
    have e2 : ((l.map fun t => (t, t)).map Prod.snd) = l := by simp [List.map_map, Function.comp_def]
    refine ⟨?_, ?_, ?_⟩
    · rw [← cov_diag]; exact hJ.one_one (n := n) hne' (by omega)
    · rw [variance, ← (sum_central hln).1]
      have := hJ.left (n := n) (m := 2) hne' (by omega) hn
      rw [e1] at this
      exact this
    · rw [variance, ← (sum_central hln).1]
      have := hJ.right (n := n) (m := 2) hne' (by omega) hn
      rw [e2] at this
      exact this
  obtain ⟨b, hb, -, -, -, hv, -, -, hlc, -, hr⟩ := hp.biCumulants h1 h12 h2 weighted same (Or.inr hn)
  have ev1 : b.values 1 1 = b.values 2 0 := by
    rw [hv, hv]
    exact List.map_congr_left fun q hq => by rw [(hvals q hq).1, (hvals q hq).2.1]
  have ev2 : b.values 0 2 = b.values 2 0 := by
    rw [hv, hv]
    exact List.map_congr_left fun q hq => by rw [(hvals q hq).2.2, (hvals q hq).2.1]
  have hsl : ∀ a a' c c', (∀ q ∈ biList m m, bcAt n a a' q = bcAt n c c' q) → b.log_cumulants a a' = b.log_cumulants c c' := by
    intro a a' c c' h
    rw [hlc, hlc]
    congr 1
    unfold biSlope
    exact slopeL_congr (fun _ _ => rfl) (fun _ _ => rfl) fun q hq => h q (biSub_mem hq)
  have el1 : b.log_cumulants 1 1 = b.log_cumulants 2 0 :=
    hsl _ _ _ _ fun q hq => by rw [(hvals q hq).1, (hvals q hq).2.1]
  have el2 : b.log_cumulants 0 2 = b.log_cumulants 2 0 :=
    hsl _ _ _ _ fun q hq => by rw [(hvals q hq).2.2, (hvals q hq).2.1]
  obtain ⟨b', hb', -, hrho⟩ := C65_rho_bounded hp hj hz hz h1 h12 h2 weighted n hn
  have hbb : b' = b := by
    have : BiCumulants.make same m m n j1 j2 weighted = BiCumulants.make false m m n j1 j2 weighted := by
      unfold BiCumulants.make
      rw [hp.njEq same, hp.njEq false]
    rw [this, hb'] at hb
    exact Except.ok.inj hb
  rw [hbb] at hrho
  obtain ⟨rho, hrho1, hrho2, hrho3⟩ := hrho hf
  refine ⟨b, hb, ev1, ev2, el1, el2, ⟨rho, hrho1, hrho2, fun k p hk hxy => ?_⟩, fun c hc => ?_⟩
  · obtain ⟨hg, -⟩ := hrho3 k p p hk hk
    rw [jointLogs_self] at hg
    simp only [List.map_map, Function.comp_def] at hg
    set l := (realVals (col p.2 0)).map fun t => Real.log |t| with hl
    have hpos : 0 < variance l := by
      obtain ⟨x, hx, y, hy, s, t, hs, ht, hst⟩ := hxy
      have hs0 : s ≠ 0 := by
        rcases hd p (List.mem_of_getElem? hk) x hx with h | ⟨u, hu, h⟩
        · rw [hs] at h; cases h
        · rw [hs] at h; cases h; exact hu
      have ht0 : t ≠ 0 := by
        rcases hd p (List.mem_of_getElem? hk) y hy with h | ⟨u, hu, h⟩
        · rw [ht] at h; cases h
        · rw [ht] at h; cases h; exact hu
      have hmem : ∀ z ∈ p.2, ∀ u : ℝ, z 0 = Fl.fin u → Real.log |u| ∈ l := by
        intro z hz' u hu
        rw [hl, List.mem_map]
        refine ⟨u, ?_, rfl⟩
        unfold realVals
        rw [List.mem_filterMap]
        exact ⟨Fl.fin u, by rw [← hu]; exact List.mem_map.2 ⟨z, hz', rfl⟩, rfl⟩
      refine variance_pos (hmem x hx s hs) (hmem y hy t ht) ?_
      intro h
      exact hst (Real.log_injOn_pos (abs_pos.2 hs0) (abs_pos.2 ht0) h)
    obtain ⟨ρ, hρ, -, hρe⟩ := hg hpos hpos
    rw [hρ, hρe, Real.mul_self_sqrt hpos.le]
    have : cov (l.map fun t => (t, t)) = variance l := cov_diag l
    rw [hl, List.map_map] at this
    simp only [Function.comp_def] at this
    rw [this, ← hl, div_self hpos.ne']
  · have hm' := (hr hf).2
    rw [el1, el2, hc] at hm'
    have hsq : ((Fl.fin c * Fl.fin c).sqrt).abs = Fl.fin |c| := by
      rw [Fl.fin_mul]
      have : (Fl.fin (c * c)).sqrt = Fl.fin (Real.sqrt (c * c)) := by
        show (if 0 ≤ _ then _ else _) = _
        rw [if_pos (mul_self_nonneg c)]
      rw [this, Fl.abs_fin, Real.sqrt_mul_self_eq_abs, abs_abs]
    rw [hsq] at hm'
    constructor
    · intro h
      rw [hm', Fl.neg_fin, Fl.fin_div (abs_pos.2 h.ne).ne', abs_of_neg h, div_self (by linarith : -c ≠ 0)]
    · intro h
      rw [hm', Fl.neg_fin, Fl.fin_div (abs_pos.2 h.ne').ne', abs_of_pos h, neg_div, div_self h.ne']

/-! ### The hypotheses are met -/

/-- Leaders of two realisations at two scales. -/
noncomputable def twoReal : MRQ 2 :=
  { formalism := .leader, gamint := 0
    values := [(1, [fun _ => Fl.nan, fun r => Fl.fin (1 + r), fun _ => Fl.fin 3, fun _ => Fl.fin 4]), (2, [fun _ => Fl.fin 2, fun r => Fl.fin (5 + r)])]
    nj := [(1, fun r => countNotNaN (col [fun _ => Fl.nan, fun (r : Fin 2) => Fl.fin (1 + r), fun _ => Fl.fin 3, fun _ => Fl.fin 4] r)),
      (2, fun r => countNotNaN (col [fun _ => Fl.fin 2, fun (r : Fin 2) => Fl.fin (5 + r)] r))] }

theorem twoReal_regular : Regular twoReal 2 := by
  refine ⟨by simp [twoReal, List.range_succ], ?_⟩
  simp [twoReal]

example : (∃ b, BiCumulants.make true twoReal twoReal 2 1 2 false = .ok b) ∧
    BiCumulants.make true twoReal twoReal 2 1 2 true = .error .valueError := by
  obtain ⟨b, -, -, hb, -⟩ := C146_pooled_cumulants twoReal_regular (j1 := 1) (j2 := 2) (by norm_num) (by norm_num) (by norm_num) 2
    (Or.inr le_rfl)
  exact ⟨⟨b, hb⟩, (C146_weighted_raises le_rfl twoReal_regular (by norm_num) (by norm_num) (by norm_num) 2).1⟩

example : ∃ b rho, BiCumulants.make true (pooled twoReal) (pooled twoReal) 2 1 2 true = .ok b ∧ b.RHO_MF = some rho ∧
    rho[0]? = some (Fl.fin 1) := by
  obtain ⟨b, hb, -, -, -, -, ⟨rho, hr, -, h⟩, -⟩ := C146_self_correlation (pooled_regular twoReal_regular) (j1 := 1) (j2 := 2)
    (by
      intro p hp x hx
      simp [pooled, twoReal, pooledArr, List.ofFn_succ] at hp
      rcases hp with rfl | rfl
      · simp at hx
        rcases hx with rfl | rfl | rfl | rfl | rfl
        · exact Or.inl rfl
        · exact Or.inr ⟨1, by norm_num, rfl⟩
        · exact Or.inr ⟨1 + 1, by norm_num, rfl⟩
        · exact Or.inr ⟨3, by norm_num, rfl⟩
        · exact Or.inr ⟨4, by norm_num, rfl⟩
      · simp at hx
        rcases hx with rfl | rfl | rfl
        · exact Or.inr ⟨2, by norm_num, rfl⟩
        · exact Or.inr ⟨5, by norm_num, rfl⟩
        · exact Or.inr ⟨5 + 1, by norm_num, rfl⟩)
    (by
      intro p hp
      simp [pooled, twoReal, pooledArr, List.ofFn_succ] at hp
      rcases hp with rfl | rfl
      · exact ⟨fun _ => Fl.fin 3, by simp, by simp⟩
      · exact ⟨fun _ => Fl.fin 2, by simp, by simp⟩)
    (by norm_num) (by norm_num) (by norm_num) true true 2 le_rfl (by simp [pooled, twoReal])
  refine ⟨b, rho, hb, hr, h 0 _ rfl ⟨fun _ => Fl.fin 3, ?_, fun _ => Fl.fin 4, ?_, 3, 4, rfl, rfl, ?_⟩⟩
  · simp [pooledArr, List.ofFn_succ]
  · simp [pooledArr, List.ofFn_succ]
  · norm_num [abs_of_pos]

end MFA
