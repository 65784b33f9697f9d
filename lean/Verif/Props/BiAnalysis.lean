import Verif.Props.BiStructure
import Verif.Props.Full
import Verif.Lemmas.DataIndep

/-! Property C67: `bivariate_analysis` and `bivariate_analysis_full`. -/

namespace MFA

open Classical

/-! ### What raises -/

/-- C67: when one of the two transforms has no leaders, `bivariate_analysis` raises, whatever the other arguments. -/
theorem C67_needs_leaders {R : ℕ} (same : Bool) (w1 w2 : WT R) (j1 : ℤ) (weighted : Bool) (n : ℕ) (q1 q2 : Option QArg)
    (h : w1.wt_leaders = none ∨ w2.wt_leaders = none) : ∃ e, bivariateAnalysis same w1 w2 j1 weighted n q1 q2 = .error e := by
  unfold bivariateAnalysis
  simp only
  split
  · exact ⟨_, rfl⟩
  · split
    · rename_i h1 h2
      rcases h with h | h
      · rw [h] at h1; cases h1
      · rw [h] at h2; cases h2
    · exact ⟨_, rfl⟩

/-- C67: `bivariate_analysis_full` with the default `p_exp=None` raises on every input. -/
theorem C67_full_default_raises {R : ℕ} (s1 s2 : Arr R) (j1 : ℤ) (j2 : Option ℝ) (nm g : ℝ) (weighted : Bool) (wt : Wavelet)
    (q1 q2 : Option QArg) (n : ℕ) : ∃ e, bivariateAnalysisFull s1 s2 j1 j2 nm g weighted wt .none q1 q2 n = .error e := by
  unfold bivariateAnalysisFull
  split
  · exact ⟨_, rfl⟩
  · rename_i w1 hw1
    split
    · exact ⟨_, rfl⟩
    · apply C67_needs_leaders
      obtain ⟨_, _, _, -, -, -, -, -, -, -, -, hle⟩ := wa_inv hw1
      exact Or.inl hle.1

/-- C67: the default `q1=None` or `q2=None` raises too. -/
theorem C67_needs_q {R : ℕ} (same : Bool) (w1 w2 : WT R) (j1 : ℤ) (weighted : Bool) (n : ℕ) (q1 q2 : Option QArg)
    (h : q1 = none ∨ q2 = none) : ∃ e, bivariateAnalysis same w1 w2 j1 weighted n q1 q2 = .error e := by
  have : ∃ e, biVar same w1.wt_coefs w2.wt_coefs j1 (min w1.j2_eff w2.j2_eff) weighted n q1 q2 = .error e := by
    unfold biVar
    split
    · exact ⟨_, rfl⟩
    · split
      · simp at h
      · split <;> exact ⟨_, rfl⟩
  obtain ⟨e, he⟩ := this
  unfold bivariateAnalysis
  simp only [he]
  exact ⟨_, rfl⟩

theorem njEq_many {R : ℕ} (hR : 2 ≤ R) {a b : Dict (Fin R → ℕ)} (ha : a ≠ []) :
    njEq false a b = .ok false ∨ njEq false a b = .error .valueError := by
  unfold njEq
  simp only [Bool.false_eq_true, if_false]
  split
  · exact Or.inl rfl
  · cases a with
    | nil => exact absurd rfl ha
    | cons p l =>
      obtain ⟨j, v⟩ := p
      unfold njEqLoop
      split
      · exact Or.inl rfl
      · unfold arrEqTruth
        rw [if_neg (by omega), if_neg (by omega)]
        exact Or.inr rfl

/-- C67: with two or more realisations, two different transforms cannot be compared: AssertionError or ValueError (as soon as
the first one has a scale). -/
theorem C67_one_realisation {R : ℕ} (hR : 2 ≤ R) (w1 w2 : WT R) (j1 : ℤ) (weighted : Bool) (n : ℕ) (q1 q2 : Option QArg)
    (h : w1.wt_coefs.nj ≠ []) :
    bivariateAnalysis false w1 w2 j1 weighted n q1 q2 = .error .assertionError ∨
    bivariateAnalysis false w1 w2 j1 weighted n q1 q2 = .error .valueError := by
  have hc : BiCumulants.make false w1.wt_coefs w2.wt_coefs n j1 (min w1.j2_eff w2.j2_eff) weighted = .error .assertionError ∨
      BiCumulants.make false w1.wt_coefs w2.wt_coefs n j1 (min w1.j2_eff w2.j2_eff) weighted = .error .valueError := by
    unfold BiCumulants.make
    split
    · exact Or.inl rfl
    · rcases njEq_many hR (b := w2.wt_coefs.nj) h with h' | h'
      · rw [h']; exact Or.inl rfl
      · rw [h']; exact Or.inr rfl
  unfold bivariateAnalysis biVar
  simp only
  rcases hc with hc | hc
  · left; rw [hc]
  · right; rw [hc]

/-- C67: two signals of the same length give AssertionError or ValueError already when there are two realisations and at least one
usable scale, for the full pipeline. -/
theorem C67_full_one_realisation {R : ℕ} (hR : 2 ≤ R) (s1 s2 : Arr R) (j1 : ℤ) (j2 : Option ℝ) (nm g : ℝ) (weighted : Bool)
    (wt : Wavelet) (p : PExp) (q1 q2 : Option QArg) (n : ℕ) (w1 : WT R)
    (hw1 : waveletAnalysis s1 p wt j1 j2 g nm weighted = .ok w1) (hs : w1.wt_coefs.values ≠ []) :
    ∃ e, bivariateAnalysisFull s1 s2 j1 j2 nm g weighted wt p q1 q2 n = .error e := by
  unfold bivariateAnalysisFull
  simp only [hw1]
  split
  · exact ⟨_, rfl⟩
  · rename_i w2 hw2
    have hnj : w1.wt_coefs.nj ≠ [] := by
      obtain ⟨_, J, _, _, hc, _⟩ := C03_regular hw1
      rw [hc.2]; simpa using hs
    rcases C67_one_realisation hR w1 w2 j1 weighted n q1 q2 hnj with h | h <;> exact ⟨_, h⟩

/-- C67: when the call returns, all four results use the scale range `j1 .. min(j2_eff1, j2_eff2)`. -/
theorem C67_scale_range {R : ℕ} {same : Bool} {w1 w2 : WT R} {j1 : ℤ} {weighted : Bool} {n : ℕ} {q1 q2 : Option QArg}
    {d l : MFBiVar R} (h : bivariateAnalysis same w1 w2 j1 weighted n q1 q2 = .ok (d, l)) :
    ∀ v ∈ [d, l], v.structure_.j1 = j1 ∧ v.cumulants.j1 = j1 ∧
      v.structure_.j2 = min w1.j2_eff w2.j2_eff ∧ v.cumulants.j2 = min w1.j2_eff w2.j2_eff ∧
      v.cumulants.n_cumul = n ∧ v.cumulants.weighted = weighted ∧ v.structure_.weighted = weighted ∧
      q1 = some v.structure_.q1 ∧ q2 = some v.structure_.q2 := by
  have hcm : ∀ {m1 m2 : MRQ R} {j2 : ℤ} {c}, BiCumulants.make same m1 m2 n j1 j2 weighted = .ok c →
      c.j1 = j1 ∧ c.j2 = j2 ∧ c.n_cumul = n ∧ c.weighted = weighted := by
    intro m1 m2 j2 c h
    unfold BiCumulants.make at h
    split at h
    · cases h
    · split at h
      · cases h
      · cases h
      · split at h
        · cases h
        · simp only at h
          split at h
          · cases h
          · split at h
            · cases h
            · split at h
              · cases h; exact ⟨rfl, rfl, rfl, rfl⟩
              · split at h
                · cases h
                · cases h; exact ⟨rfl, rfl, rfl, rfl⟩
  have hsf : ∀ {m1 m2 : MRQ R} {j2 : ℤ} {a b c}, BiStructFn.make same m1 m2 j1 j2 a b weighted = .ok c →
      c.j1 = j1 ∧ c.j2 = j2 ∧ c.q1 = a ∧ c.q2 = b ∧ c.weighted = weighted := by
    intro m1 m2 j2 a b c h
    unfold BiStructFn.make at h
    split at h
    · cases h
    · split at h
      · cases h
      · split at h
        · cases h
        · cases h
        · split at h
          · cases h
          · split at h
            · cases h
            · split at h
              · cases h
              · simp only at h
                split at h
                · cases h
                · split at h
                  · cases h
                  · cases h; exact ⟨rfl, rfl, rfl, rfl, rfl⟩
  have hv : ∀ {m1 m2 : MRQ R} {j2 : ℤ} {v}, biVar same m1 m2 j1 j2 weighted n q1 q2 = .ok v →
      v.structure_.j1 = j1 ∧ v.cumulants.j1 = j1 ∧ v.structure_.j2 = j2 ∧ v.cumulants.j2 = j2 ∧
      v.cumulants.n_cumul = n ∧ v.cumulants.weighted = weighted ∧ v.structure_.weighted = weighted ∧
      q1 = some v.structure_.q1 ∧ q2 = some v.structure_.q2 := by
    intro m1 m2 j2 v h
    unfold biVar at h
    split at h
    · cases h
    · rename_i c hc
      split at h
      · split at h
        · cases h
        · rename_i s hs
          cases h
          obtain ⟨a1, a2, a3, a4⟩ := hcm hc
          obtain ⟨b1, b2, b3, b4, b5⟩ := hsf hs
          exact ⟨b1, a1, b2, a2, a3, a4, b5, by rw [b3], by rw [b4]⟩
      · split at h <;> cases h
  unfold bivariateAnalysis at h
  simp only at h
  split at h
  · cases h
  · rename_i dd hd
    split at h
    · split at h
      · cases h
      · rename_i ll hl
        cases h
        intro v hvm
        simp only [List.mem_cons, List.not_mem_nil, or_false] at hvm
        rcases hvm with rfl | rfl
        · exact hv hd
        · exact hv hl
    · cases h

/-! ### Two finite signals of the same length -/

theorem forall₂_scales {fm fm' : Formalism} {g g' : ℝ} {f f' : ℕ → Arr 1} {K : ℕ}
    (h : ∀ s, 1 ≤ s → s ≤ K → (f s).length = (f' s).length) :
    List.Forall₂ (fun p p' => p.2.length = p'.2.length) (scalesUpTo fm g f K).values (scalesUpTo fm' g' f' K).values := by
  simp only [scalesUpTo]
  rw [List.forall₂_map_left_iff, List.forall₂_map_right_iff, List.forall₂_same]
  intro i hi
  rw [List.mem_range] at hi
  exact h (i + 1) (by omega) (by omega)

theorem scalesUpTo_paired {fm : Formalism} {g : ℝ} {f f' : ℕ → Arr 1} {K : ℕ}
    (h : ∀ s, 1 ≤ s → s ≤ K → (f s).length = (f' s).length)
    (hn : ∀ s, 1 ≤ s → s ≤ K → ∀ k < (f s).length, ∀ r, (ent (f s) k r = Fl.nan ↔ ent (f' s) k r = Fl.nan)) :
    Paired (scalesUpTo fm g f K) (scalesUpTo fm g f' K) K ∧ SameNaN (scalesUpTo fm g f K) (scalesUpTo fm g f' K) := by
  refine ⟨⟨scalesUpTo_regular _ _ _ _, scalesUpTo_regular _ _ _ _, rfl, rfl, ?_, forall₂_scales h⟩, ?_⟩
  · rw [(scalesUpTo_regular fm g f K).2, (scalesUpTo_regular fm g f' K).2]
    simp only [scalesUpTo, List.map_map]
    apply List.map_congr_left
    intro i hi
    rw [List.mem_range] at hi
    simp only [Function.comp, Prod.mk.injEq, true_and]
    funext r
    rw [col_range, col_range, ← h (i + 1) (by omega) (by omega)]
    exact countNotNaN_range_congr _ _ _ (fun k hk => hn (i + 1) (by omega) (by omega) k hk r)
  · intro k p p' hp hp' i x y hx hy
    simp only [scalesUpTo, List.getElem?_map, Option.map_eq_some_iff] at hp hp'
    obtain ⟨a, ha, rfl⟩ := hp
    obtain ⟨b, hb, rfl⟩ := hp'
    have hab : a = b := by rw [ha] at hb; exact Option.some.inj hb
    subst hab
    have ha' := List.mem_range.1 (List.mem_of_getElem? ha)
    have hi := (List.getElem?_eq_some_iff.1 hx).1
    have := hn (a + 1) (by omega) (by omega) i hi 0
    simp only at hx hy
    simp only [ent, hx, hy] at this
    simpa using this

/-- Leaders or no leaders: for two finite signals of the same length, coefficients and leaders are paired and NaN at the same
places, and the two transforms have the same range of scales. -/
theorem wa_paired {N : ℕ} {x y : Fin 1 → ℤ → ℝ} {wt : Wavelet} (hwt : wt.Valid) {j1 : ℤ} {j2 : Option ℝ} {g nm : ℝ}
    {weighted : Bool} {w1 w2 : WT 1} (h1 : waveletAnalysis (sampled N x) .inf wt j1 j2 g nm weighted = .ok w1)
    (h2 : waveletAnalysis (sampled N y) .inf wt j1 j2 g nm weighted = .ok w2) :
    ∃ (J Jc : ℕ) (l1 l2 : MRQ 1), w1.j2_eff = w2.j2_eff ∧ w1.j2_eff ≤ (J : ℤ) ∧ J ≤ Jc ∧
      w1.wt_leaders = some l1 ∧ w2.wt_leaders = some l2 ∧ w1.wt_coefs.formalism = .coef ∧ l1.formalism = .leader ∧
      Paired w1.wt_coefs w2.wt_coefs Jc ∧ SameNaN w1.wt_coefs w2.wt_coefs ∧ Paired l1 l2 J ∧ SameNaN l1 l2 := by
  obtain ⟨ml, K, Kc, a1, a2, a3, a4, a5, -, a7, a8⟩ := wa_finite hwt (by norm_num) h1
  obtain ⟨ml', K', Kc', b1, b2, b3, b4, b5, -, b7, b8⟩ := wa_finite hwt (by norm_num) h2
  rw [a1] at b1
  obtain rfl : ml = ml' := Except.ok.inj b1
  obtain rfl : K = K' := a2.unique b2
  obtain rfl : Kc = Kc' := by rw [a3, b3]
  refine ⟨K, Kc, _, _, by rw [a7, b7], by rw [a7]; exact j2Eff_le a2.1 j2, ?_, a8, b8, by rw [a5]; rfl, rfl, ?_⟩
  · rw [a3]; split <;> omega
  · rw [a5, b5]
    have hc := scalesUpTo_paired (fm := .coef) (g := g) (f := coefSeq (wparams wt g nm) (sampled N x))
      (f' := coefSeq (wparams wt g nm) (sampled N y)) (K := Kc)
      (fun s hs _ => by rw [coefSeq_length _ _ _ hs, coefSeq_length _ _ _ hs, sampled_length, sampled_length])
      (fun s hs hsK k hk r => by
        rw [coefSeq_length _ _ _ hs, sampled_length] at hk
        have hr : ∀ i < s, 2 * (wt.dec_hi.length + 1) ≤ N / 2 ^ i := fun i hi => level_room a1 (by omega)
        rw [coef_nan_iff wt hwt g nm x r hs hr hk, coef_nan_iff wt hwt g nm y r hs hr hk])
    have hl := scalesUpTo_paired (fm := .leader) (g := g) (f := leadSeq (wparams wt g nm) .inf (sampled N x))
      (f' := leadSeq (wparams wt g nm) .inf (sampled N y)) (K := K)
      (fun s hs _ => by rw [leadSeq_length, leadSeq_length, sampled_length, sampled_length])
      (fun s hs hsK k hk r => by
        rw [leadSeq_length, sampled_length] at hk
        have := a2.1
        have hr : ∀ i < s, 2 * (wt.dec_hi.length + 1) ≤ N / 2 ^ i := fun i hi => level_room a1 (by omega)
        rw [lead_nan_iff wt hwt g nm .inf x r hs hr hk, lead_nan_iff wt hwt g nm .inf y r hs hr hk])
    exact ⟨hc.1, hc.2, hl.1, hl.2⟩

/-- What a bivariate result `v` has to agree on with the univariate results `v1`, `v2` of the two quantities: the log-cumulants of
orders `(m, 0)` and `(0, m)`, and the scaling exponents with one exponent equal to zero. -/
def Marginals (n : ℕ) (q1 q2 : List ℝ) (v : MFBiVar 1) (v1 v2 : MFVar 1) : Prop :=
  (∀ i < n, (v1.cumulants.log_cumulants[i]?.map fun row => row 0) = some (v.cumulants.log_cumulants (i + 1) 0) ∧
    (v2.cumulants.log_cumulants[i]?.map fun row => row 0) = some (v.cumulants.log_cumulants 0 (i + 1))) ∧
  (∀ i k : ℕ, i < q1.length → q2[k]? = some 0 →
    (v.structure_.zeta[i]?.bind fun l => l[k]?) = v1.structure_.zeta[i]?.map (fun row => row 0)) ∧
  (∀ i k : ℕ, q1[i]? = some 0 → k < q2.length →
    (v.structure_.zeta[i]?.bind fun l => l[k]?) = v2.structure_.zeta[k]?.map (fun row => row 0))

theorem biVar_marginals {m1 m2 : MRQ 1} {J : ℕ} (hp : Paired m1 m2 J) (hs : SameNaN m1 m2) {j1 j2 : ℤ} (h1 : 1 ≤ j1)
    (h12 : j1 ≤ j2) (h2 : j2 ≤ J) (weighted : Bool) (n : ℕ) (hn : 2 ≤ n) (q1 q2 : List ℝ) (hn1 : q1.Nodup) (hn2 : q2.Nodup)
    (hq1 : (0:ℝ) ∈ q1 ∧ (1:ℝ) ∈ q1 ∧ (2:ℝ) ∈ q1) (hq2 : (0:ℝ) ∈ q2 ∧ (1:ℝ) ∈ q2 ∧ (2:ℝ) ∈ q2) {v1 v2 : MFVar 1}
    (hv1 : IsBundle m1 j1 j2 weighted n q1 v1) (hv2 : IsBundle m2 j1 j2 weighted n q2 v2) :
    ∃ v, biVar false m1 m2 j1 j2 weighted n (some (.ndarray q1)) (some (.ndarray q2)) = .ok v ∧
      Marginals n q1 q2 v v1 v2 := by
  obtain ⟨b, c1, c2, hb, hc1, hc2, hcm⟩ := C64_marginals hp hs h1 h12 h2 weighted n (Or.inr hn)
  obtain ⟨s, s1, s2, hsf, hs1, hs2, hz1, hz2⟩ := C69_marginals hp hs h1 h12 h2 weighted q1 q2 hn1 hn2 hq1 hq2
  obtain rfl : c1 = v1.cumulants := Except.ok.inj (hc1.symm.trans hv1.2.1)
  obtain rfl : c2 = v2.cumulants := Except.ok.inj (hc2.symm.trans hv2.2.1)
  obtain rfl : s1 = v1.structure_ := Except.ok.inj (hs1.symm.trans hv1.1)
  obtain rfl : s2 = v2.structure_ := Except.ok.inj (hs2.symm.trans hv2.1)
  refine ⟨⟨s, b⟩, ?_, fun i hi => ⟨(hcm i hi).2.2.1, (hcm i hi).2.2.2.1⟩, fun i k hi hk => (hz1 i k hi hk).1,
    fun i k hi hk => (hz2 i k hi hk).1⟩
  unfold biVar
  simp only [hb, hsf]

/-- C64, C67, C69 for the whole pipeline, in terms of the inputs only: for two NaN-free signals of one realisation and the same
length, an infinite `p_exp`, a valid wavelet of length at least 4, `1 ≤ j1 < L`, `j1 ≤ j2`, `normalization ≠ 0`, `n_cumul ≥ 2` and
arrays of distinct exponents containing 0, 1, 2, `bivariate_analysis_full` returns, and its marginals, for coefficients and leaders,
are the results of `mf_analysis_full` on each signal. -/
theorem C67_full_marginals {N : ℕ} (x y : Fin 1 → ℤ → ℝ) (wt : Wavelet) (hwt : wt.Valid) (hF : 4 ≤ wt.dec_hi.length) (j1 : ℤ)
    (j2 : Option ℝ) (g nm : ℝ) (hnm : nm ≠ 0) (weighted : Bool) (q1 q2 : List ℝ) (hn1 : q1.Nodup) (hn2 : q2.Nodup)
    (hq1 : (0:ℝ) ∈ q1 ∧ (1:ℝ) ∈ q1 ∧ (2:ℝ) ∈ q1) (hq2 : (0:ℝ) ∈ q2 ∧ (1:ℝ) ∈ q2 ∧ (2:ℝ) ∈ q2) (n : ℕ) (hn : 2 ≤ n) {L : ℤ}
    (hL : decompositionLevel N wt = .ok L) (h1 : 1 ≤ j1) (h1L : j1 < L) (h12 : ∀ b, j2 = some b → (j1 : ℝ) ≤ b) :
    ∃ d l d1 l1 d2 l2,
      bivariateAnalysisFull (sampled N x) (sampled N y) j1 j2 nm g weighted wt .inf (some (.ndarray q1)) (some (.ndarray q2)) n
        = .ok (d, l) ∧
      mfAnalysisFull (sampled N x) j1 j2 nm g weighted wt .inf (some (.ndarray q1)) n = .ok ⟨d1, some l1⟩ ∧
      mfAnalysisFull (sampled N y) j1 j2 nm g weighted wt .inf (some (.ndarray q2)) n = .ok ⟨d2, some l2⟩ ∧
      Marginals n q1 q2 d d1 d2 ∧ Marginals n q1 q2 l l1 l2 := by
  have ex : ∀ (z : Fin 1 → ℤ → ℝ) (q : List ℝ), (2:ℝ) ∈ q → ∃ w dd ll leads,
      waveletAnalysis (sampled N z) .inf wt j1 j2 g nm weighted = .ok w ∧ j1 ≤ w.j2_eff ∧ w.wt_leaders = some leads ∧
      mfAnalysisFull (sampled N z) j1 j2 nm g weighted wt .inf (some (.ndarray q)) n = .ok ⟨dd, some ll⟩ ∧
      IsBundle w.wt_coefs j1 w.j2_eff weighted n q dd ∧ IsBundle leads j1 w.j2_eff weighted n q ll := by
    intro z q hq
    obtain ⟨w, hw, hfull⟩ := C48_total (sampled N z) .inf (Or.inr rfl) wt j1 j2 g nm weighted (some (.ndarray q)) n (by norm_num)
      (sampled_ne_nil_of_level z hL) hnm
    have hj := admissible_j2 (by norm_num) hwt (Or.inr hF) hL h1 h1L h12 hw
    obtain ⟨d, hd, -, hsome, -⟩ := hfull h1 hj hq
    obtain ⟨_, _, _, -, -, -, -, -, -, -, -, hle⟩ := wa_inv hw
    have hd' := hd
    unfold mfAnalysisFull at hd'
    simp only [hw, C47_bundle, hle.1] at hd'
    obtain ⟨hb, v, hv, hb'⟩ := hd'
    refine ⟨w, d.dwt, v, _, hw, hj, hle.1, ?_, hb, hb'⟩
    rw [hd, ← hv]
  obtain ⟨w1, d1, l1, m1, hw1, hj, hm1, hf1, hd1, hl1⟩ := ex x q1 hq1.2.2
  obtain ⟨w2, d2, l2, m2, hw2, -, hm2, hf2, hd2, hl2⟩ := ex y q2 hq2.2.2
  obtain ⟨J, Jc, a1, a2, he, hJ, hJc, ha1, ha2, -, -, hpc, hsc, hpl, hsl⟩ := wa_paired hwt hw1 hw2
  rw [hm1] at ha1; rw [hm2] at ha2
  cases ha1; cases ha2
  rw [← he] at hd2 hl2
  obtain ⟨d, hd, hdm⟩ := biVar_marginals hpc hsc h1 hj (by omega) weighted n hn q1 q2 hn1 hn2 hq1 hq2 hd1 hd2
  obtain ⟨l, hl, hlm⟩ := biVar_marginals hpl hsl h1 hj hJ weighted n hn q1 q2 hn1 hn2 hq1 hq2 hl1 hl2
  refine ⟨d, l, d1, l1, d2, l2, ?_, hf1, hf2, hdm, hlm⟩
  unfold bivariateAnalysisFull bivariateAnalysis
  simp only [hw1, hw2, hm1, hm2, ← he, min_self, hd, hl]

/-- The hypotheses are met: 100 samples of `t²` and of `sin t`, a filter of length 4, `j1 = 2`. -/
example : ∃ d l, bivariateAnalysisFull (sampled 100 (fun (_ : Fin 1) (t : ℤ) => (t : ℝ) ^ 2))
    (sampled 100 (fun (_ : Fin 1) (t : ℤ) => Real.sin t)) 2 none 1 0 true
    { dec_lo := [1, 1, 1, 1], dec_hi := [1, -1, -1, 1] } .inf (some (.ndarray [0, 1, 2, 3])) (some (.ndarray [2, 1, 0])) 3
      = .ok (d, l) := by
  have hlev : decompositionLevel 100 { dec_lo := [1, 1, 1, 1], dec_hi := [1, -1, -1, 1] } = .ok ((4 : ℕ) : ℤ) :=
    (C01_integer 100 4 _ (by norm_num)).mpr (by norm_num)
  obtain ⟨d, l, -, -, -, -, h, -⟩ := C67_full_marginals (fun (_ : Fin 1) (t : ℤ) => (t : ℝ) ^ 2)
    (fun (_ : Fin 1) (t : ℤ) => Real.sin t) { dec_lo := [1, 1, 1, 1], dec_hi := [1, -1, -1, 1] } ⟨rfl, by simp⟩ (by simp) 2 none 0 1
    one_ne_zero true [0, 1, 2, 3] [2, 1, 0] (by norm_num) (by norm_num) (by norm_num) (by norm_num) 3 (by norm_num) hlev
    (by norm_num) (by norm_num) (by simp)
  exact ⟨d, l, h⟩

end MFA
