import Verif.Props.Bivariate

/-! Properties C66, C68, C69: `BiStructureFunction`, bivariate Legendre spectrum. -/

namespace MFA

open Classical

variable {m1 m2 : MRQ 1} {J : ℕ} {j1 j2 : ℤ}

/-! ### The coherence -/

theorem mem_bcast {α β γ : Type} {err : PyErr} {f : α → β → γ} {a : List α} {b : List β} {l : List γ}
    (h : bcast err f a b = .ok l) : ∀ z ∈ l, ∃ x ∈ a, ∃ y ∈ b, z = f x y := by
  unfold bcast at h
  split at h
  · cases h
    intro z hz
    rw [List.mem_iff_getElem?] at hz
    obtain ⟨i, hi⟩ := hz
    rw [List.getElem?_zipWith_eq_some] at hi
    obtain ⟨x, y, hx, hy, rfl⟩ := hi
    exact ⟨x, List.mem_of_getElem? hx, y, List.mem_of_getElem? hy, rfl⟩
  · split at h
    · cases h
      intro z hz
      obtain ⟨y, hy, rfl⟩ := List.mem_map.1 hz
      exact ⟨_, by simp, y, hy, rfl⟩
    · cases h
      intro z hz
      obtain ⟨x, hx, rfl⟩ := List.mem_map.1 hz
      exact ⟨x, hx, _, by simp, rfl⟩
    · cases h

theorem mem_positions {q : List ℝ} {v : ℝ} {i : ℕ} : i ∈ positions q v ↔ q[i]? = some v := by
  unfold positions
  simp only [List.mem_filter, List.mem_range, decide_eq_true_eq, and_iff_right_iff_imp]
  intro h
  exact (List.getElem?_eq_some_iff.1 h).1

theorem positions_nodup {q : List ℝ} {v : ℝ} (hq : q.Nodup) (hv : v ∈ q) : ∃ i, positions q v = [i] := by
  obtain ⟨i, hi⟩ := List.mem_iff_getElem?.1 hv
  refine ⟨i, ?_⟩
  have hnd : (positions q v).Nodup := List.Nodup.filter _ List.nodup_range
  have hall : ∀ k ∈ positions q v, k = i := by
    intro k hk
    rw [mem_positions] at hk
    have hk' := List.getElem?_eq_some_iff.1 hk
    exact (List.getElem?_inj hk'.1 hq).1 (hk.trans hi.symm)
  have hi' : i ∈ positions q v := mem_positions.2 hi
  cases hp : positions q v with
  | nil => rw [hp] at hi'; cases hi'
  | cons a l =>
    rw [hp] at hnd hall
    have ha := hall a (by simp)
    cases l with
    | nil => rw [ha]
    | cons b l =>
      have hb := hall b (by simp)
      rw [List.nodup_cons] at hnd
      exact (hnd.1 (by rw [ha, hb]; simp)).elim

theorem mem_maskRows {q1 q2 : List ℝ} {a b : ℝ} {values : ℝ → ℝ → List Fl} {l : List (List Fl)}
    (h : maskRows q1 q2 a b values = .ok l) : ∀ z ∈ l, z = values a b := by
  intro z hz
  obtain ⟨i, hi, k, hk, rfl⟩ := mem_bcast h z hz
  rw [mem_positions] at hi hk
  rw [List.getD_eq_getElem?_getD, List.getD_eq_getElem?_getD, hi, hk]; rfl

theorem maskRows_nodup {q1 q2 : List ℝ} {a b : ℝ} {values : ℝ → ℝ → List Fl} (h1 : q1.Nodup) (h2 : q2.Nodup)
    (ha : a ∈ q1) (hb : b ∈ q2) : maskRows q1 q2 a b values = .ok [values a b] := by
  obtain ⟨i, hi⟩ := positions_nodup h1 ha
  obtain ⟨k, hk⟩ := positions_nodup h2 hb
  have hi' : q1[i]? = some a := mem_positions.1 (by rw [hi]; simp)
  have hk' : q2[k]? = some b := mem_positions.1 (by rw [hk]; simp)
  unfold maskRows bcast
  rw [hi, hk]
  simp only [List.length_cons, List.length_nil, if_true, List.zipWith_cons_cons, List.zipWith_nil_left]
  rw [List.getD_eq_getElem?_getD, List.getD_eq_getElem?_getD, hi', hk']; rfl

theorem mem_first {α : Type} {l : List α} {x : α} (h : first l = .ok x) : x ∈ l := by
  cases l with
  | nil => cases h
  | cons y l => cases h; simp

/-- The coherence of one scale. -/
noncomputable def cohOf (ps : List (Fl × Fl)) : Fl :=
  bsMean ps (.real 1) (.real 1) / (bsMean ps (.real 2) (.real 0) * bsMean ps (.real 0) (.real 2)).sqrt

theorem zipWith_map_map {α β γ δ : Type} (f : β → γ → δ) (g : α → β) (h : α → γ) (l : List α) :
    List.zipWith f (l.map g) (l.map h) = l.map fun x => f (g x) (h x) := by
  induction l with
  | nil => rfl
  | cons a l ih => simp [ih]

theorem bsCoherence_eq {scales : List (List (Fl × Fl))} {q1 q2 : QArg} {coh : List Fl}
    (h : bsCoherence scales q1 q2 = .ok coh) : coh = scales.map cohOf := by
  cases q1 with
  | pylist q => cases h
  | ndarray q1 => cases q2 with
    | pylist q => cases h
    | ndarray q2 =>
      unfold bsCoherence at h
      simp only at h
      split at h
      · cases h
      · rename_i l11 h11
        split at h
        · cases h
        · rename_i v11 hv11
          split at h
          · cases h
          · rename_i l20 h20
            split at h
            · cases h
            · rename_i l02 h02
              split at h
              · cases h
              · rename_i den hden
                split at h
                · cases h
                · rename_i d hd
                  cases h
                  have e11 := mem_maskRows h11 _ (mem_first hv11)
                  obtain ⟨x, hx, y, hy, rfl⟩ := mem_bcast hden _ (mem_first hd)
                  have e20 := mem_maskRows h20 _ hx
                  have e02 := mem_maskRows h02 _ hy
                  rw [e11, e20, e02, zipWith_map_map, zipWith_map_map]
                  rfl

theorem bsCoherence_ok {q1 q2 : List ℝ} (h1 : q1.Nodup) (h2 : q2.Nodup) (h01 : (0:ℝ) ∈ q1) (h11 : (1:ℝ) ∈ q1)
    (h21 : (2:ℝ) ∈ q1) (h02 : (0:ℝ) ∈ q2) (h12 : (1:ℝ) ∈ q2) (h22 : (2:ℝ) ∈ q2) (scales : List (List (Fl × Fl))) :
    bsCoherence scales (.ndarray q1) (.ndarray q2) = .ok (scales.map cohOf) := by
  unfold bsCoherence
  simp only [maskRows_nodup h1 h2 h11 h12, maskRows_nodup h1 h2 h21 h02, maskRows_nodup h1 h2 h01 h22, first, bcast,
    List.length_cons, List.length_nil, if_true, List.zipWith_cons_cons, List.zipWith_nil_left]
  rw [zipWith_map_map, zipWith_map_map]
  rfl

/-! ### Closed form of the constructor -/

/-- `log2 S(j, q1, q2)` at one scale. -/
noncomputable def bsLog (e1 e2 : ℝ) (q : (ℤ × Arr 1) × (ℤ × Arr 1)) : Fl :=
  (bsAbsMean (biPairs q) (.real e1) (.real e2)).log2

theorem Paired.biStructFn (hp : Paired m1 m2 J) (h1 : 1 ≤ j1) (h12 : j1 ≤ j2) (h2 : j2 ≤ J) (weighted same : Bool)
    {q1 q2 : List ℝ} {coh : List Fl}
    (hcoh : bsCoherence ((biList m1 m2).map biPairs) (.ndarray q1) (.ndarray q2) = .ok coh) (hq1 : q1 ≠ []) (hq2 : q2 ≠ []) :
    BiStructFn.make same m1 m2 j1 j2 (.ndarray q1) (.ndarray q2) weighted = .ok {
      formalism := m1.formalism, gamint := m1.gamint, j := m1.values.keys, q1 := .ndarray q1, q2 := .ndarray q2
      j1 := j1, j2 := j2, weighted := weighted
      logvalues := q1.map fun e1 => q2.map fun e2 => (biList m1 m2).map (bsLog e1 e2)
      zeta := q1.map fun e1 => q2.map fun e2 => biSlope m1 m2 j1 j2 weighted (bsLog e1 e2)
      intercept := q1.map fun e1 => q2.map fun e2 => biInter m1 m2 j1 j2 weighted (bsLog e1 e2)
      coherence := coh } := by
  have hval : ∀ e1 e2 : ℝ, ((biList m1 m2).map biPairs).map (fun ps => (bsAbsMean ps (.real e1) (.real e2)).log2) =
      (biList m1 m2).map (bsLog e1 e2) := by
    intro a b; rw [List.map_map]; rfl
  choose var hvar using fun e1 e2 => hp.regression h1 h12 h2 weighted (bsLog e1 e2)
  have hregs : mapE (fun l => mapE (fun curve => biRegression curve j1 j2 (biW m1 m2 j1 j2 weighted)) l)
      (q1.map fun e1 => q2.map fun e2 => (biList m1 m2).map (bsLog e1 e2)) =
      .ok (q1.map fun e1 => q2.map fun e2 => ⟨fun _ => biSlope m1 m2 j1 j2 weighted (bsLog e1 e2),
        fun _ => biInter m1 m2 j1 j2 weighted (bsLog e1 e2), var e1 e2⟩) := by
    apply mapE_map_ok
    intro e1 _
    apply mapE_map_ok
    intro e2 _
    exact hvar e1 e2
  have hne : ¬ ((QArg.ndarray q1).expos = [] ∨ (QArg.ndarray q2).expos = []) := by
    simp [expos_ndarray, hq1, hq2]
  unfold BiStructFn.make
  rw [if_neg (by simp [hp.formalism]), if_neg (by simp [hp.gamint]), hp.njEq same]
  simp only
  rw [if_neg hne]
  simp only [hp.pairScales, hcoh, hp.weights h1 h12 h2 weighted, expos_ndarray, List.map_map,
    Function.comp_def] at hregs ⊢
  have hval' : ∀ e1 e2 : ℝ, (biList m1 m2).map (fun x => (bsAbsMean (biPairs x) (.real e1) (.real e2)).log2) =
      (biList m1 m2).map (bsLog e1 e2) := fun _ _ => rfl
  simp only [hval', hregs, List.map_map, Function.comp_def]

/-! ### C66 -/

theorem jointVals_is {c1 c2 : List Fl} (h1 : ∀ x ∈ c1, x = Fl.nan ∨ ∃ t : ℝ, x = Fl.fin t)
    (h2 : ∀ x ∈ c2, x = Fl.nan ∨ ∃ t : ℝ, x = Fl.fin t) : JointIs (c1.zip c2) (jointVals c1 c2) := by
  unfold JointIs jointVals
  induction c1 generalizing c2 with
  | nil => rfl
  | cons x c1 ih =>
    cases c2 with
    | nil => rfl
    | cons y c2 =>
      have ih' := ih (c2 := c2) (fun x hx => h1 x (by simp [hx])) (fun x hx => h2 x (by simp [hx]))
      rcases h1 x (by simp) with rfl | ⟨s, rfl⟩
      · simpa using ih'
      · rcases h2 y (by simp) with rfl | ⟨t, rfl⟩
        · simpa using ih'
        · simp only [List.zip_cons_cons, List.filterMap_cons]
          rw [List.filter_cons_of_pos (by simp), ih']
          rfl

theorem JointIs.bsMean {ps : List (Fl × Fl)} {zs : List (ℝ × ℝ)} (h : JointIs ps zs) (hz : zs ≠ []) (a b : ℕ) :
    bsMean ps (.real a) (.real b) = Fl.fin (mean (zs.map fun z => z.1 ^ a * z.2 ^ b)) := h.bcMoment hz a b

theorem JointIs.bsMean_nil {ps : List (Fl × Fl)} (h : JointIs ps []) (e1 e2 : Expo) : MFA.bsMean ps e1 e2 = Fl.nan := by
  unfold MFA.bsMean
  have := h.dropNaN (fun p => fastPower e1 p.1 * fastPower e2 p.2) (fun _ => 0) (prod_nan e1 e2) (by simp)
  rw [← nanmean_dropNaN, this]
  show Fl.fin 0 * (if (((0:ℕ):ℝ)) = 0 then Fl.pinf else _) = _
  rw [if_pos (by simp), Fl.fin_mul_pinf, Fl.sgnInf_zero]

/-- Value of the coherence at a scale with finite data. -/
theorem cohOf_joint {ps : List (Fl × Fl)} {zs : List (ℝ × ℝ)} (h : JointIs ps zs) :
    (((∃ z ∈ zs, z.1 ≠ 0) ∧ (∃ z ∈ zs, z.2 ≠ 0)) → cohOf ps = Fl.fin ((zs.map fun z => z.1 * z.2).sum /
      Real.sqrt ((zs.map fun z => z.1 ^ 2).sum * (zs.map fun z => z.2 ^ 2).sum)) ∧
      |(zs.map fun z => z.1 * z.2).sum / Real.sqrt ((zs.map fun z => z.1 ^ 2).sum * (zs.map fun z => z.2 ^ 2).sum)| ≤ 1) ∧
    (¬ ((∃ z ∈ zs, z.1 ≠ 0) ∧ (∃ z ∈ zs, z.2 ≠ 0)) → cohOf ps = Fl.nan) := by
  by_cases hz : zs = []
  · subst hz
    refine ⟨(by rintro ⟨⟨z, hz, _⟩, _⟩; cases hz), fun _ => ?_⟩
    unfold cohOf
    rw [h.bsMean_nil, Fl.nan_div]
  have hlen : (0:ℝ) < zs.length := by exact_mod_cast List.length_pos_iff.mpr hz
  have e11 := h.bsMean hz 1 1
  have e20 := h.bsMean hz 2 0
  have e02 := h.bsMean hz 0 2
  simp only [Nat.cast_one, Nat.cast_ofNat, Nat.cast_zero, pow_one, pow_zero, mul_one, one_mul] at e11 e20 e02
  set A := (zs.map fun z => z.1 ^ 2).sum with hA
  set B := (zs.map fun z => z.2 ^ 2).sum with hB
  set C := (zs.map fun z => z.1 * z.2).sum with hC
  have hA0 : 0 ≤ A := List.sum_nonneg (by intro x hx; obtain ⟨y, _, rfl⟩ := List.mem_map.1 hx; positivity)
  have hB0 : 0 ≤ B := List.sum_nonneg (by intro x hx; obtain ⟨y, _, rfl⟩ := List.mem_map.1 hx; positivity)
  have hCS : C ^ 2 ≤ A * B := cauchy_list zs Prod.fst Prod.snd
  have m11 : mean (zs.map fun z => z.1 * z.2) = C / zs.length := by simp [mean, hC]
  have m20 : mean (zs.map fun z => z.1 ^ 2) = A / zs.length := by simp [mean, hA]
  have m02 : mean (zs.map fun z => z.2 ^ 2) = B / zs.length := by simp [mean, hB]
  have hval : cohOf ps = Fl.fin (C / zs.length) / Fl.fin (Real.sqrt (A * B) / zs.length) := by
    unfold cohOf
    rw [e11, e20, e02, m11, m20, m02, Fl.fin_mul]
    have hs : (Fl.fin (A / zs.length * (B / zs.length))).sqrt = Fl.fin (Real.sqrt (A * B) / zs.length) := by
      show (if 0 ≤ _ then _ else _) = _
      rw [if_pos (by positivity)]
      congr 1
      rw [div_mul_div_comm, Real.sqrt_div (by positivity), Real.sqrt_mul_self hlen.le]
    rw [hs]
  have hpos : ∀ f : ℝ × ℝ → ℝ, (∃ z ∈ zs, f z ≠ 0) → 0 < (zs.map fun z => f z ^ 2).sum := by
    rintro f ⟨z, hzm, hz0⟩
    have : f z ^ 2 ≤ (zs.map fun z => f z ^ 2).sum :=
      List.single_le_sum (by intro x hx; obtain ⟨y, _, rfl⟩ := List.mem_map.1 hx; positivity) _
        (List.mem_map.2 ⟨z, hzm, rfl⟩)
    have h2 : 0 < f z ^ 2 := by positivity
    linarith
  have hzero : ∀ f : ℝ × ℝ → ℝ, (¬ ∃ z ∈ zs, f z ≠ 0) → (zs.map fun z => f z ^ 2).sum = 0 := by
    intro f hf
    apply List.sum_eq_zero
    intro x hx
    obtain ⟨z, hz, rfl⟩ := List.mem_map.1 hx
    have : f z = 0 := by by_contra h0; exact hf ⟨z, hz, h0⟩
    simp [this]
  constructor
  · rintro ⟨hx, hy⟩
    have hAp : 0 < A := hpos Prod.fst hx
    have hBp : 0 < B := hpos Prod.snd hy
    have hsq : 0 < Real.sqrt (A * B) := Real.sqrt_pos.2 (mul_pos hAp hBp)
    constructor
    · rw [hval, Fl.fin_div (by positivity)]
      congr 1
      field_simp
    · rw [mul_comm A B]
      exact ratio_le_one hAp hBp hCS
  · intro hn
    have hAB : A * B = 0 := by
      rw [not_and_or] at hn
      rcases hn with h' | h'
      · rw [show A = 0 from hzero Prod.fst h', zero_mul]
      · rw [show B = 0 from hzero Prod.snd h', mul_zero]
    have hC0 : C = 0 := by
      rw [hAB] at hCS
      exact pow_eq_zero_iff (two_ne_zero) |>.1 (le_antisymm hCS (sq_nonneg _))
    rw [hval, hAB, hC0, Real.sqrt_zero, zero_div, Fl.div_def]
    show Fl.fin 0 * (if (0:ℝ) = 0 then Fl.pinf else _) = _
    rw [if_pos rfl, Fl.fin_mul_pinf, Fl.sgnInf_zero]

theorem finite_col {m : MRQ 1} (hd : ∀ p ∈ m.values, ∀ x ∈ p.2, x 0 = Fl.nan ∨ ∃ t : ℝ, x 0 = Fl.fin t) {p : ℤ × Arr 1}
    (hp : p ∈ m.values) : ∀ x ∈ col p.2 0, x = Fl.nan ∨ ∃ t : ℝ, x = Fl.fin t := by
  intro x hx
  obtain ⟨r, hr, rfl⟩ := List.mem_map.1 hx
  exact hd p hp r hr

/-- C66: whenever `BiStructureFunction` returns, on finite data (NaNs allowed), the coherence at each scale is a number in [-1, 1],
or NaN exactly when one of the two quantities vanishes at all jointly available places. -/
theorem C66_coherence_bounded (hp : Paired m1 m2 J)
    (hd1 : ∀ p ∈ m1.values, ∀ x ∈ p.2, x 0 = Fl.nan ∨ ∃ t : ℝ, x 0 = Fl.fin t)
    (hd2 : ∀ p ∈ m2.values, ∀ x ∈ p.2, x 0 = Fl.nan ∨ ∃ t : ℝ, x 0 = Fl.fin t) {same weighted : Bool} {q1 q2 : QArg}
    {s : BiStructFn} (hs : BiStructFn.make same m1 m2 j1 j2 q1 q2 weighted = .ok s) :
    s.coherence.length = J ∧ ∀ (k : ℕ) p p', m1.values[k]? = some p → m2.values[k]? = some p' →
      (((∃ z ∈ jointVals (col p.2 0) (col p'.2 0), z.1 ≠ 0) ∧ (∃ z ∈ jointVals (col p.2 0) (col p'.2 0), z.2 ≠ 0)) →
        ∃ c : ℝ, s.coherence[k]? = some (Fl.fin c) ∧ |c| ≤ 1) ∧
      (¬ ((∃ z ∈ jointVals (col p.2 0) (col p'.2 0), z.1 ≠ 0) ∧ (∃ z ∈ jointVals (col p.2 0) (col p'.2 0), z.2 ≠ 0)) →
        s.coherence[k]? = some Fl.nan) := by
  have hcoh : s.coherence = (biList m1 m2).map fun q => cohOf (biPairs q) := by
    unfold BiStructFn.make at hs
    rw [if_neg (by simp [hp.formalism]), if_neg (by simp [hp.gamint]), hp.njEq same] at hs
    simp only [hp.pairScales] at hs
    split at hs
    · cases hs
    · split at hs
      · cases hs
      · rename_i coh hc
        have := bsCoherence_eq hc
        split at hs
        · cases hs
        · split at hs
          · cases hs
          · cases hs
            simp only [this, List.map_map]; rfl
  have hlen := congrArg List.length hp.reg1.1
  rw [← hp.fst] at hlen
  simp only [List.length_map, List.length_range] at hlen
  rw [hcoh]
  refine ⟨by rw [List.length_map, hlen], fun k p p' hk hk' => ?_⟩
  have hbl : (biList m1 m2)[k]? = some (p, p') := List.getElem?_zip_eq_some.2 ⟨hk, hk'⟩
  have hmem := List.mem_of_getElem? hbl
  have hJ : JointIs (biPairs (p, p')) (jointVals (col p.2 0) (col p'.2 0)) :=
    jointVals_is (finite_col hd1 (List.mem_of_getElem? hk)) (finite_col hd2 (List.mem_of_getElem? hk'))
  obtain ⟨c1, c2⟩ := cohOf_joint hJ
  rw [List.getElem?_map, hbl, Option.map_some]
  refine ⟨fun h => ⟨_, by rw [(c1 h).1], (c1 h).2⟩, fun h => by rw [c2 h]⟩

/-- C66: with numpy arrays of distinct exponents that contain 0, 1 and 2 the object is built, and the coherence is +1 or -1 (the sign
of the factor) at each scale where the second quantity is a multiple of the first one. -/
theorem C66_proportional (hp : Paired m1 m2 J) (hd : JointFinite m1 m2) (h1 : 1 ≤ j1) (h12 : j1 ≤ j2) (h2 : j2 ≤ J)
    (weighted : Bool) (q1 q2 : List ℝ) (hn1 : q1.Nodup) (hn2 : q2.Nodup) (hq1 : (0:ℝ) ∈ q1 ∧ (1:ℝ) ∈ q1 ∧ (2:ℝ) ∈ q1)
    (hq2 : (0:ℝ) ∈ q2 ∧ (1:ℝ) ∈ q2 ∧ (2:ℝ) ∈ q2) :
    ∃ s, BiStructFn.make false m1 m2 j1 j2 (.ndarray q1) (.ndarray q2) weighted = .ok s ∧
      ∀ (k : ℕ) p p' (a : ℝ), m1.values[k]? = some p → m2.values[k]? = some p' → a ≠ 0 →
        (∃ z ∈ jointVals (col p.2 0) (col p'.2 0), z.1 ≠ 0) →
        (∀ z ∈ jointVals (col p.2 0) (col p'.2 0), z.2 = a * z.1) →
        s.coherence[k]? = some (Fl.fin (if 0 < a then 1 else -1)) := by
  have hok := bsCoherence_ok hn1 hn2 hq1.1 hq1.2.1 hq1.2.2 hq2.1 hq2.2.1 hq2.2.2 ((biList m1 m2).map biPairs)
  have hne1 : q1 ≠ [] := by rintro rfl; simp at hq1
  have hne2 : q2 ≠ [] := by rintro rfl; simp at hq2
  refine ⟨_, hp.biStructFn h1 h12 h2 weighted false hok hne1 hne2, ?_⟩
  intro k p p' a hk hk' ha hx hprop
  have hbl : (biList m1 m2)[k]? = some (p, p') := List.getElem?_zip_eq_some.2 ⟨hk, hk'⟩
  have hJ : JointIs (biPairs (p, p')) (jointVals (col p.2 0) (col p'.2 0)) :=
    jointVals_is (finite_col hd.1 (List.mem_of_getElem? hk)) (finite_col hd.2.1 (List.mem_of_getElem? hk'))
  obtain ⟨c1, -⟩ := cohOf_joint hJ
  have hy : ∃ z ∈ jointVals (col p.2 0) (col p'.2 0), z.2 ≠ 0 := by
    obtain ⟨z, hz, hz0⟩ := hx
    exact ⟨z, hz, by rw [hprop z hz]; exact mul_ne_zero ha hz0⟩
  have hv := (c1 ⟨hx, hy⟩).1
  simp only
  rw [List.map_map, List.getElem?_map, hbl, Option.map_some, Function.comp_apply, hv]
  congr 2
  set zs := jointVals (col p.2 0) (col p'.2 0) with hzs
  set A := (zs.map fun z => z.1 ^ 2).sum with hA
  have e1 : (zs.map fun z => z.1 * z.2).sum = a * A := by
    rw [hA, ← List.sum_map_mul_left]
    congr 1
    apply List.map_congr_left
    intro z hz; rw [hprop z hz]; ring
  have e2 : (zs.map fun z => z.2 ^ 2).sum = a ^ 2 * A := by
    rw [hA, ← List.sum_map_mul_left]
    congr 1
    apply List.map_congr_left
    intro z hz; rw [hprop z hz]; ring
  have hAp : 0 < A := by
    obtain ⟨z, hz, hz0⟩ := hx
    have : z.1 ^ 2 ≤ (zs.map fun z => z.1 ^ 2).sum :=
      List.single_le_sum (by intro x hx; obtain ⟨y, _, rfl⟩ := List.mem_map.1 hx; positivity) _
        (List.mem_map.2 ⟨z, hz, rfl⟩)
    have h2 : 0 < z.1 ^ 2 := by positivity
    linarith
  rw [e1, e2, show A * (a ^ 2 * A) = (|a| * A) ^ 2 by rw [mul_pow, sq_abs]; ring,
    Real.sqrt_sq (by positivity)]
  by_cases hpos : 0 < a
  · rw [if_pos hpos, abs_of_pos hpos]; field_simp
  · have hneg : a < 0 := lt_of_le_of_ne (not_lt.1 hpos) ha
    rw [if_neg hpos, abs_of_neg hneg]; field_simp

/-- C66: python lists of exponents raise IndexError (whatever the exponents). -/
theorem C66_lists_raise (hp : Paired m1 m2 J) (weighted same : Bool) (q1 q2 : QArg)
    (h : (∃ l, q1 = .pylist l) ∨ (∃ l, q2 = .pylist l)) :
    BiStructFn.make same m1 m2 j1 j2 q1 q2 weighted = .error .indexError := by
  have hcoh : ∀ sc, bsCoherence sc q1 q2 = .error .indexError := by
    intro sc
    rcases h with ⟨l, rfl⟩ | ⟨l, rfl⟩
    · rfl
    · cases q1 <;> rfl
  unfold BiStructFn.make
  rw [if_neg (by simp [hp.formalism]), if_neg (by simp [hp.gamint]), hp.njEq same]
  simp only [hp.pairScales, hcoh]
  split <;> rfl

/-! ### C69 -/

theorem bsAbsMean_left {ps : List (Fl × Fl)} (h : ∀ z ∈ ps, (z.1 = Fl.nan ↔ z.2 = Fl.nan)) (e : Expo) :
    bsAbsMean ps e (.real 0) = nanmean ((ps.map Prod.fst).map fun x => fastPower e x.abs) := by
  unfold bsAbsMean
  rw [List.map_map]
  congr 1
  apply List.map_congr_left
  intro z hz
  have : z.1.abs = Fl.nan ↔ z.2.abs = Fl.nan := by
    rw [← Fl.isNaN_iff, ← Fl.isNaN_iff, Fl.isNaN_abs, Fl.isNaN_abs, Fl.isNaN_iff, Fl.isNaN_iff]
    exact h z hz
  exact fastPower_zero_mul this e

theorem bsAbsMean_swap (ps : List (Fl × Fl)) (e1 e2 : Expo) : bsAbsMean (ps.map Prod.swap) e1 e2 = bsAbsMean ps e2 e1 := by
  unfold bsAbsMean
  rw [List.map_map]
  congr 1
  apply List.map_congr_left
  intro z _
  exact Fl.mul_comm _ _

theorem biPairs_swap (q : (ℤ × Arr 1) × (ℤ × Arr 1)) : biPairs q.swap = (biPairs q).map Prod.swap := by
  unfold biPairs; rw [List.zip_swap]; rfl

theorem bsLog_left (hp : Paired m1 m2 J) (hs : SameNaN m1 m2) (e : ℝ) {q : (ℤ × Arr 1) × (ℤ × Arr 1)}
    (hq : q ∈ biList m1 m2) : bsLog e 0 q = (sfMean q.1.2 (.real e) 0).log2 := by
  unfold bsLog
  rw [bsAbsMean_left (hs.pairs hq)]
  have hl : (col q.1.2 0).length ≤ (col q.2.2 0).length := by rw [col_length, col_length, hp.len hq]
  unfold biPairs sfMean red
  rw [List.map_fst_zip hl, col_mapArr, col_mapArr, List.map_map]
  rfl

theorem bsLog_swap (e1 e2 : ℝ) (q : (ℤ × Arr 1) × (ℤ × Arr 1)) : bsLog e1 e2 q.swap = bsLog e2 e1 q := by
  unfold bsLog; rw [biPairs_swap, bsAbsMean_swap]

theorem SameNaN.swap (hs : SameNaN m1 m2) : SameNaN m2 m1 :=
  fun k p p' hk hk' i x y hx hy => (hs k p' p hk' hk i y x hy hx).symm

theorem bsLog_right (hp : Paired m1 m2 J) (hs : SameNaN m1 m2) (e : ℝ) {q : (ℤ × Arr 1) × (ℤ × Arr 1)}
    (hq : q ∈ biList m1 m2) : bsLog 0 e q = (sfMean q.2.2 (.real e) 0).log2 := by
  rw [← bsLog_swap]
  have : q.swap ∈ biList m2 m1 := by
    unfold biList; rw [← List.zip_swap, List.mem_map]; exact ⟨q, hq, rfl⟩
  exact bsLog_left hp.swap hs.swap e this

/-- C69: `zeta(q1, 0)` and `zeta(0, q2)` (and the log structure functions and intercepts) of `BiStructureFunction` are those of
`StructureFunction` on each quantity, when NaNs are at the same places. -/
theorem C69_marginals (hp : Paired m1 m2 J) (hs : SameNaN m1 m2) (h1 : 1 ≤ j1) (h12 : j1 ≤ j2) (h2 : j2 ≤ J)
    (weighted : Bool) (q1 q2 : List ℝ) (hn1 : q1.Nodup) (hn2 : q2.Nodup) (hq1 : (0:ℝ) ∈ q1 ∧ (1:ℝ) ∈ q1 ∧ (2:ℝ) ∈ q1)
    (hq2 : (0:ℝ) ∈ q2 ∧ (1:ℝ) ∈ q2 ∧ (2:ℝ) ∈ q2) :
    ∃ b s1 s2, BiStructFn.make false m1 m2 j1 j2 (.ndarray q1) (.ndarray q2) weighted = .ok b ∧
      StructFn.make m1 (.ndarray q1) j1 j2 weighted = .ok s1 ∧ StructFn.make m2 (.ndarray q2) j1 j2 weighted = .ok s2 ∧
      (∀ (i k : ℕ), i < q1.length → q2[k]? = some 0 →
        (b.zeta[i]?.bind fun l => l[k]?) = s1.zeta[i]?.map (fun row => row 0) ∧
        (b.intercept[i]?.bind fun l => l[k]?) = s1.intercept[i]?.map (fun row => row 0) ∧
        (b.logvalues[i]?.bind fun l => l[k]?) = s1.logvalues[i]?.map (fun a => a.map fun row => row 0)) ∧
      (∀ (i k : ℕ), q1[i]? = some 0 → k < q2.length →
        (b.zeta[i]?.bind fun l => l[k]?) = s2.zeta[k]?.map (fun row => row 0) ∧
        (b.intercept[i]?.bind fun l => l[k]?) = s2.intercept[k]?.map (fun row => row 0) ∧
        (b.logvalues[i]?.bind fun l => l[k]?) = s2.logvalues[k]?.map (fun a => a.map fun row => row 0)) := by
  have hok := bsCoherence_ok hn1 hn2 hq1.1 hq1.2.1 hq1.2.2 hq2.1 hq2.2.1 hq2.2.2 ((biList m1 m2).map biPairs)
  have hne1 : q1 ≠ [] := by rintro rfl; simp at hq1
  have hne2 : q2 ≠ [] := by rintro rfl; simp at hq2
  refine ⟨_, _, _, hp.biStructFn h1 h12 h2 weighted false hok hne1 hne2, hp.reg1.structFn h1 h12 h2 weighted q1 hq1.2.2,
    hp.reg2.structFn h1 h12 h2 weighted q2 hq2.2.2, ?_, ?_⟩
  · intro i k hi hk
    have e : q1[i]? = some q1[i] := List.getElem?_eq_getElem hi
    have hs1 : biSlope m1 m2 j1 j2 weighted (bsLog q1[i] 0) = zetaF m1 j1 j2 weighted (.real q1[i]) 0 := by
      unfold zetaF
      rw [hp.slope_left]
      exact slopeL_congr (fun _ _ => rfl) (fun _ _ => rfl) (fun q hq => bsLog_left hp hs _ (biSub_mem hq))
    have hi1 : biInter m1 m2 j1 j2 weighted (bsLog q1[i] 0) = zetaIF m1 j1 j2 weighted (.real q1[i]) 0 := by
      unfold zetaIF
      rw [hp.inter_left]
      exact interL_congr (fun _ _ => rfl) (fun _ _ => rfl) (fun q hq => bsLog_left hp hs _ (biSub_mem hq))
    have hl1 : (biList m1 m2).map (bsLog q1[i] 0) = m1.values.map fun p => (sfMean p.2 (.real q1[i]) 0).log2 := by
      conv_rhs => rw [← hp.fst, List.map_map]
      exact List.map_congr_left (fun q hq => bsLog_left hp hs _ hq)
    simp only [List.getElem?_map, e, hk, Option.map_some, Option.bind_some, hs1, hi1, hl1, sfLogValues, List.map_map,
      Function.comp_def, and_self]
  · intro i k hi hk
    have e : q2[k]? = some q2[k] := List.getElem?_eq_getElem hk
    have hs1 : biSlope m1 m2 j1 j2 weighted (bsLog 0 q2[k]) = zetaF m2 j1 j2 weighted (.real q2[k]) 0 := by
      unfold zetaF
      rw [hp.slope_right]
      exact slopeL_congr (fun _ _ => rfl) (fun _ _ => rfl) (fun q hq => bsLog_right hp hs _ (biSub_mem hq))
    have hi1 : biInter m1 m2 j1 j2 weighted (bsLog 0 q2[k]) = zetaIF m2 j1 j2 weighted (.real q2[k]) 0 := by
      unfold zetaIF
      rw [hp.inter_right]
      exact interL_congr (fun _ _ => rfl) (fun _ _ => rfl) (fun q hq => bsLog_right hp hs _ (biSub_mem hq))
    have hl1 : (biList m1 m2).map (bsLog 0 q2[k]) = m2.values.map fun p => (sfMean p.2 (.real q2[k]) 0).log2 := by
      conv_rhs => rw [← hp.snd, List.map_map]
      exact List.map_congr_left (fun q hq => bsLog_right hp hs _ hq)
    simp only [List.getElem?_map, e, hi, Option.map_some, Option.bind_some, hs1, hi1, hl1, sfLogValues, List.map_map,
      Function.comp_def, and_self]

/-- C69: exchanging the quantities and the exponents transposes `zeta`, `intercept` and `logvalues`; the coherence does not change. -/
theorem C69_transpose (hp : Paired m1 m2 J) (h1 : 1 ≤ j1) (h12 : j1 ≤ j2) (h2 : j2 ≤ J)
    (weighted : Bool) (q1 q2 : List ℝ) (hn1 : q1.Nodup) (hn2 : q2.Nodup) (hq1 : (0:ℝ) ∈ q1 ∧ (1:ℝ) ∈ q1 ∧ (2:ℝ) ∈ q1)
    (hq2 : (0:ℝ) ∈ q2 ∧ (1:ℝ) ∈ q2 ∧ (2:ℝ) ∈ q2) :
    ∃ b b', BiStructFn.make false m1 m2 j1 j2 (.ndarray q1) (.ndarray q2) weighted = .ok b ∧
      BiStructFn.make false m2 m1 j1 j2 (.ndarray q2) (.ndarray q1) weighted = .ok b' ∧
      (∀ i k : ℕ, (b'.zeta[k]?.bind fun l => l[i]?) = (b.zeta[i]?.bind fun l => l[k]?) ∧
        (b'.intercept[k]?.bind fun l => l[i]?) = (b.intercept[i]?.bind fun l => l[k]?) ∧
        (b'.logvalues[k]?.bind fun l => l[i]?) = (b.logvalues[i]?.bind fun l => l[k]?)) ∧
      b'.coherence = b.coherence := by
  have hok := bsCoherence_ok hn1 hn2 hq1.1 hq1.2.1 hq1.2.2 hq2.1 hq2.2.1 hq2.2.2 ((biList m1 m2).map biPairs)
  have hok' := bsCoherence_ok hn2 hn1 hq2.1 hq2.2.1 hq2.2.2 hq1.1 hq1.2.1 hq1.2.2 ((biList m2 m1).map biPairs)
  have hne1 : q1 ≠ [] := by rintro rfl; simp at hq1
  have hne2 : q2 ≠ [] := by rintro rfl; simp at hq2
  have hlist : biList m2 m1 = (biList m1 m2).map Prod.swap := by
    unfold biList; rw [List.zip_swap]
  have hsub : biSub m2 m1 j1 j2 = (biSub m1 m2 j1 j2).map Prod.swap := by
    unfold biSub; rw [hlist, pySlice_map]
  have hS : ∀ a c, biSlope m2 m1 j1 j2 weighted (bsLog a c) = biSlope m1 m2 j1 j2 weighted (bsLog c a) := by
    intro i k
    unfold biSlope
    rw [hsub, slopeL_map]
    apply slopeL_congr
    · intro q hq
      simp only [Function.comp_apply, Prod.fst_swap, hp.keys (biSub_mem hq)]
    · intro q hq
      simp only [Function.comp_apply, Prod.fst_swap, wtOf, hp.counts (biSub_mem hq)]
    · intro q _
      exact bsLog_swap i k q
  have hI : ∀ a c, biInter m2 m1 j1 j2 weighted (bsLog a c) = biInter m1 m2 j1 j2 weighted (bsLog c a) := by
    intro i k
    unfold biInter
    rw [hsub, interL_map]
    apply interL_congr
    · intro q hq
      simp only [Function.comp_apply, Prod.fst_swap, hp.keys (biSub_mem hq)]
    · intro q hq
      simp only [Function.comp_apply, Prod.fst_swap, wtOf, hp.counts (biSub_mem hq)]
    · intro q _
      exact bsLog_swap i k q
  have hV : ∀ a c, (biList m2 m1).map (bsLog a c) = (biList m1 m2).map (bsLog c a) := by
    intro a c
    rw [hlist, List.map_map]
    exact List.map_congr_left (fun q _ => bsLog_swap a c q)
  refine ⟨_, _, hp.biStructFn h1 h12 h2 weighted false hok hne1 hne2,
    hp.swap.biStructFn h1 h12 h2 weighted false hok' hne2 hne1, fun i k => ?_, ?_⟩
  · simp only [List.getElem?_map, hS, hI, hV]
    rcases ha : q1[i]? with _ | a <;> rcases hc : q2[k]? with _ | c <;>
      simp only [ha, hc, Option.map_none, Option.map_some, Option.bind_none, Option.bind_some, List.getElem?_map, and_self]
  · simp only
    rw [hlist, List.map_map, List.map_map, List.map_map]
    apply List.map_congr_left
    intro q _
    simp only [Function.comp_apply, biPairs_swap]
    have hm : ∀ e1 e2, bsMean ((biPairs q).map Prod.swap) e1 e2 = bsMean (biPairs q) e2 e1 := by
      intro e1 e2
      unfold bsMean
      rw [List.map_map]
      congr 1
      apply List.map_congr_left
      intro z _
      exact Fl.mul_comm _ _
    unfold cohOf
    rw [hm, hm, hm, Fl.mul_comm (bsMean _ _ (.real 2))]

/-! ### C68 -/

/-- C68: when `c20 < 0`, `c02 < 0` and `c20 c02 > c11^2`, the bivariate spectrum is at most 1 at every point of the grid, and equals 1
exactly at the grid points `(h1, h2) = (c10, c01)`. -/
theorem C68_peak {R : ℕ} (c : BiCumulants R) {c10 c01 c20 c02 c11 : ℝ} (e10 : c.log_cumulants 1 0 = Fl.fin c10)
    (e01 : c.log_cumulants 0 1 = Fl.fin c01) (e20 : c.log_cumulants 2 0 = Fl.fin c20)
    (e02 : c.log_cumulants 0 2 = Fl.fin c02) (e11 : c.log_cumulants 1 1 = Fl.fin c11) (n20 : c20 < 0) (n02 : c02 < 0)
    (hdet : c11 ^ 2 < c20 * c02) (support : ℝ × ℝ) (resolution : ℕ) :
    (c.computeLegendre support resolution).1 = linspace support.1 support.2 resolution ∧
    ∀ (i k : ℕ) (x y : ℝ), (linspace support.1 support.2 resolution)[i]? = some x →
      (linspace support.1 support.2 resolution)[k]? = some y →
      ∃ L : ℝ, (c.computeLegendre support resolution).2 i k = Fl.fin L ∧ L ≤ 1 ∧ (L = 1 ↔ x = c10 ∧ y = c01) := by
  refine ⟨rfl, fun i k x y hx hy => ?_⟩
  have hb : 0 < c20 * c02 - c11 * c11 := by nlinarith
  unfold BiCumulants.computeLegendre
  simp only [e10, e01, e20, e02, e11]
  rw [List.getD_eq_getElem?_getD, List.getD_eq_getElem?_getD, hx, hy]
  simp only [Option.getD_some, Fl.fin_mul, Fl.fin_sub, Fl.fin_div hb.ne', Fl.fin_div (two_ne_zero (α := ℝ)), Fl.fin_add]
  set b := c20 * c02 - c11 * c11 with hbdef
  refine ⟨_, rfl, ?_⟩
  set u := (x - c10) / b with hu
  set v := (y - c01) / b with hv
  have key : 1 + c02 * b / 2 * (u * u) + c20 * b / 2 * (v * v) - c11 * b * u * v =
      1 + b / (2 * c02) * ((c02 * u - c11 * v) ^ 2 + b * v ^ 2) := by
    have hc : c20 = (b + c11 * c11) / c02 := by rw [eq_div_iff n02.ne]; linarith
    have h02 := n02.ne
    clear_value u v b
    rw [hc]; field_simp; ring
  have hneg : b / (2 * c02) < 0 := div_neg_of_pos_of_neg hb (by linarith)
  have hsq : 0 ≤ (c02 * u - c11 * v) ^ 2 + b * v ^ 2 := by positivity
  have hx0 : u = 0 ↔ x = c10 := by
    rw [hu, div_eq_zero_iff, sub_eq_zero]; simp [hb.ne']
  have hy0 : v = 0 ↔ y = c01 := by
    rw [hv, div_eq_zero_iff, sub_eq_zero]; simp [hb.ne']
  rw [key, ← hx0, ← hy0]
  constructor
  · nlinarith [mul_nonneg (neg_nonneg.2 hneg.le) hsq]
  · constructor
    · intro h
      have h0 : (c02 * u - c11 * v) ^ 2 + b * v ^ 2 = 0 := by
        have : b / (2 * c02) * ((c02 * u - c11 * v) ^ 2 + b * v ^ 2) = 0 := by linarith
        exact (mul_eq_zero.1 this).resolve_left hneg.ne
      have hv2 : b * v ^ 2 = 0 := by nlinarith [sq_nonneg (c02 * u - c11 * v), mul_nonneg hb.le (sq_nonneg v)]
      have hv0 : v = 0 := by
        have := (mul_eq_zero.1 hv2).resolve_left hb.ne'
        exact pow_eq_zero_iff (two_ne_zero) |>.1 this
      have hu0 : c02 * u = 0 := by
        rw [hv0] at h0
        have : (c02 * u) ^ 2 = 0 := by nlinarith
        exact pow_eq_zero_iff (two_ne_zero) |>.1 this
      exact ⟨(mul_eq_zero.1 hu0).resolve_left n02.ne, hv0⟩
    · rintro ⟨h1, h2⟩
      rw [h1, h2]; ring

/-- C68: when `c20 c02 = c11^2` the spectrum is NaN at every point. -/
theorem C68_degenerate {R : ℕ} (c : BiCumulants R) {c10 c01 c20 c02 c11 : ℝ} (e10 : c.log_cumulants 1 0 = Fl.fin c10)
    (e01 : c.log_cumulants 0 1 = Fl.fin c01) (e20 : c.log_cumulants 2 0 = Fl.fin c20)
    (e02 : c.log_cumulants 0 2 = Fl.fin c02) (e11 : c.log_cumulants 1 1 = Fl.fin c11)
    (hdet : c11 ^ 2 = c20 * c02) (support : ℝ × ℝ) (resolution i k : ℕ) :
    (c.computeLegendre support resolution).2 i k = Fl.nan := by
  have hb : c20 * c02 - c11 * c11 = 0 := by rw [← hdet]; ring
  have hz : ∀ t : ℝ, Fl.fin 0 * ((Fl.fin t / Fl.fin 0) * (Fl.fin t / Fl.fin 0)) = Fl.nan := by
    intro t
    have hi : (Fl.fin 0)⁻¹ = Fl.pinf := by
      show (if (0:ℝ) = 0 then Fl.pinf else _) = _
      rw [if_pos rfl]
    rw [Fl.div_def, hi, Fl.fin_mul_pinf]
    rcases lt_trichotomy t 0 with h | h | h
    · rw [Fl.sgnInf_neg h, Fl.ninf_mul_ninf, Fl.fin_mul_pinf, Fl.sgnInf_zero]
    · rw [h, Fl.sgnInf_zero]; simp
    · rw [Fl.sgnInf_pos h, Fl.pinf_mul_pinf, Fl.fin_mul_pinf, Fl.sgnInf_zero]
  unfold BiCumulants.computeLegendre
  simp only [e10, e01, e20, e02, e11]
  rw [Fl.fin_mul, Fl.fin_mul, Fl.fin_sub, hb, Fl.fin_mul, Fl.fin_mul, Fl.fin_sub, mul_zero, mul_zero,
    Fl.fin_div two_ne_zero, zero_div, hz]
  simp

end MFA
