import Verif.Lemmas.Range
import Verif.Model.Mfa

/-! Closed forms of the estimators on regular quantities. -/

namespace MFA

open Classical Finset

theorem maskEq_map {β : Type} (q : List ℝ) (v : ℝ) (Z : ℝ → β) :
    maskEq q v (q.map Z) = (q.filter (fun t => decide (t = v))).map Z := by
  unfold maskEq
  induction q with
  | nil => rfl
  | cons a q ih =>
    simp only [List.map_cons, List.zip_cons_cons, List.filter_cons]
    by_cases h : a = v
    · simp [h, ih]
    · simp [h, ih]

theorem filter_eq_head {q : List ℝ} {v : ℝ} (h : v ∈ q) :
    ∃ l, q.filter (fun t => decide (t = v)) = v :: l := by
  induction q with
  | nil => cases h
  | cons a q ih =>
    by_cases ha : a = v
    · exact ⟨q.filter (fun t => decide (t = v)), by simp [ha]⟩
    · rcases List.mem_cons.mp h with h | h
      · exact absurd h.symm ha
      · obtain ⟨l, hl⟩ := ih h; exact ⟨l, by simp [ha, hl]⟩

theorem filter_eq_nil' {q : List ℝ} {v : ℝ} (h : v ∉ q) : q.filter (fun t => decide (t = v)) = [] := by
  rw [List.filter_eq_nil_iff]
  intro a ha; simp only [decide_eq_true_eq]; rintro rfl; exact h ha

section
variable {R : ℕ}

/-- zeta(e) of realisation r. -/
noncomputable def zetaF (m : MRQ R) (j1 j2 : ℤ) (weighted : Bool) (e : Expo) (r : Fin R) : Fl :=
  slopeL (subR m j1 j2) (fun p => (p.1 : ℝ)) (fun p => wtOf weighted p r) (fun p => (sfMean p.2 e r).log2)

noncomputable def zetaIF (m : MRQ R) (j1 j2 : ℤ) (weighted : Bool) (e : Expo) (r : Fin R) : Fl :=
  interL (subR m j1 j2) (fun p => (p.1 : ℝ)) (fun p => wtOf weighted p r) (fun p => (sfMean p.2 e r).log2)

/-- slope of the cumulant of order i+1. -/
noncomputable def cumF (m : MRQ R) (j1 j2 : ℤ) (weighted : Bool) (n i : ℕ) (r : Fin R) : Fl :=
  slopeL (subR m j1 j2) (fun p => (p.1 : ℝ)) (fun p => wtOf weighted p r)
    (fun p => (cmColumn (logAbsCol p.2 r) n).getD i Fl.nan)

noncomputable def cumIF (m : MRQ R) (j1 j2 : ℤ) (weighted : Bool) (n i : ℕ) (r : Fin R) : Fl :=
  interL (subR m j1 j2) (fun p => (p.1 : ℝ)) (fun p => wtOf weighted p r)
    (fun p => (cmColumn (logAbsCol p.2 r) n).getD i Fl.nan)

noncomputable def varF (m : MRQ R) (j1 j2 : ℤ) (weighted : Bool) (r : Fin R) : Fl :=
  lrVar ((subR m j1 j2).map fun p => Fl.fin (p.1 : ℝ)) ((subR m j1 j2).map fun p => Fl.fin (wtOf weighted p r))

noncomputable def uF (m : MRQ R) (j1 j2 : ℤ) (weighted : Bool) (e : Expo) (r : Fin R) : Fl :=
  slopeL (subR m j1 j2) (fun p => (p.1 : ℝ)) (fun p => wtOf weighted p r)
    (fun p => msU (countNotNaN (col p.2 r)) (col p.2 r) e)

noncomputable def vF (m : MRQ R) (j1 j2 : ℤ) (weighted : Bool) (e : Expo) (r : Fin R) : Fl :=
  slopeL (subR m j1 j2) (fun p => (p.1 : ℝ)) (fun p => wtOf weighted p r) (fun p => msV (col p.2 r) e)

noncomputable def hminF (m : MRQ R) (j1 j2 : ℤ) (weighted : Bool) (r : Fin R) : Fl :=
  slopeL (subR m j1 j2) (fun p => (p.1 : ℝ)) (fun p => wtOf weighted p r)
    (fun p => (nanmax ((col p.2 r).map Fl.abs)).log2)

noncomputable def hminIF (m : MRQ R) (j1 j2 : ℤ) (weighted : Bool) (r : Fin R) : Fl :=
  interL (subR m j1 j2) (fun p => (p.1 : ℝ)) (fun p => wtOf weighted p r)
    (fun p => (nanmax ((col p.2 r).map Fl.abs)).log2)

variable {m : MRQ R} {J : ℕ} {j1 j2 : ℤ} 

theorem Regular.checkNrep (hm : Regular m J) (h1 : 1 ≤ j1) (h12 : j1 ≤ j2) (h2 : j2 ≤ J) :
    m.checkNrep = .ok () := by
  have : m.values ≠ [] := by
    intro h
    have := hm.length
    rw [h] at this
    simp at this
    omega
  unfold MRQ.checkNrep
  cases hv : m.values with
  | nil => exact absurd hv this
  | cons a l => rfl

theorem Regular.sfRegressions (hm : Regular m J) (h1 : 1 ≤ j1) (h12 : j1 ≤ j2) (h2 : j2 ≤ J) (weighted : Bool)
    (q : List Expo) :
    MFA.sfRegressions m (sfLogValues m q) j1 j2 weighted = .ok (q.map fun e =>
      { slope := zetaF m j1 j2 weighted e, intercept := zetaIF m j1 j2 weighted e
        var := varF m j1 j2 weighted }) := by
  unfold MFA.sfRegressions
  rw [hm.weights h1 h12 h2]
  simp only
  unfold sfLogValues
  induction q with
  | nil => rfl
  | cons e q ih =>
    rw [List.map_cons, mapE, hm.regression h1 h12 h2 weighted (fun p r => (sfMean p.2 e r).log2)]
    simp only [ih]
    rfl

theorem expos_ndarray (q : List ℝ) : (QArg.ndarray q).expos = q.map Expo.real := rfl

/-- The structure function of a regular quantity, for a numpy array `q`. -/
theorem Regular.structFn (hm : Regular m J) (h1 : 1 ≤ j1) (h12 : j1 ≤ j2) (h2 : j2 ≤ J) (weighted : Bool)
    (q : List ℝ) (hq : (2:ℝ) ∈ q) :
    StructFn.make m (.ndarray q) j1 j2 weighted = .ok {
      formalism := m.formalism, gamint := m.gamint, j := m.values.keys, q := .ndarray q
      j1 := j1, j2 := j2, weighted := weighted
      logvalues := sfLogValues m (q.map Expo.real)
      zeta := q.map fun e => zetaF m j1 j2 weighted (.real e)
      intercept := q.map fun e => zetaIF m j1 j2 weighted (.real e)
      H := fun r => zetaF m j1 j2 weighted (.real 2) r / Fl.fin 2 - Fl.fin m.gamint } := by
  unfold StructFn.make
  rw [hm.checkNrep h1 h12 h2, expos_ndarray]
  simp only
  rw [hm.sfRegressions h1 h12 h2]
  simp only [List.map_map, Function.comp_def, sfGetH]
  rw [maskEq_map q 2 (fun e => zetaF m j1 j2 weighted (.real e))]
  obtain ⟨l, hl⟩ := filter_eq_head hq
  rw [hl]
  rfl

/-- When 2 is not in the array `q`, IndexError. -/
theorem Regular.structFn_no2 (hm : Regular m J) (h1 : 1 ≤ j1) (h12 : j1 ≤ j2) (h2 : j2 ≤ J) (weighted : Bool)
    (q : List ℝ) (hq : (2:ℝ) ∉ q) : StructFn.make m (.ndarray q) j1 j2 weighted = .error .indexError := by
  unfold StructFn.make
  rw [hm.checkNrep h1 h12 h2, expos_ndarray]
  simp only
  rw [hm.sfRegressions h1 h12 h2]
  simp only [List.map_map, Function.comp_def, sfGetH]
  rw [maskEq_map q 2 (fun e => zetaF m j1 j2 weighted (.real e)), filter_eq_nil' hq]
  rfl

theorem Regular.cumulants (hm : Regular m J) (h1 : 1 ≤ j1) (h12 : j1 ≤ j2) (h2 : j2 ≤ J) (weighted : Bool)
    (n : ℕ) :
    Cumulants.make m n j1 j2 weighted = .ok {
      formalism := m.formalism, nj := m.nj, j := m.values.keys, n_cumul := n
      j1 := j1, j2 := j2, weighted := weighted, values := cmValues m n
      log_cumulants := (List.range n).map fun i r => cumF m j1 j2 weighted n i r * Fl.fin log2e
      var_log_cumulants := (List.range n).map fun _ r => Fl.fin (log2e ^ 2) * varF m j1 j2 weighted r
      slope := (List.range n).map fun i => cumF m j1 j2 weighted n i
      intercept := (List.range n).map fun i => cumIF m j1 j2 weighted n i } := by
  unfold Cumulants.make
  rw [hm.checkNrep h1 h12 h2]
  simp only
  rw [hm.weights h1 h12 h2]
  simp only
  have : mapE (fun v => linearRegression (tileScales R j1 j2) (pySlice v (j1 - 1) j2)
      (.mat ((subR m j1 j2).map fun p r => Fl.fin (wtOf weighted p r)))) (cmValues m n)
      = .ok ((List.range n).map fun i => { slope := cumF m j1 j2 weighted n i
                                           intercept := cumIF m j1 j2 weighted n i
                                           var := varF m j1 j2 weighted }) := by
    unfold cmValues
    generalize List.range n = L
    induction L with
    | nil => rfl
    | cons i L ih =>
      rw [List.map_cons, mapE, hm.regression h1 h12 h2 weighted
        (fun p r => (cmColumn (logAbsCol p.2 r) n).getD i Fl.nan)]
      simp only [ih]
      rfl
  rw [this]
  simp only [List.map_map, Function.comp_def]

theorem Regular.msUV (hm : Regular m J) (e : Expo) :
    MFA.msUV m e = .ok (m.values.map fun p => ((fun r => msU (countNotNaN (col p.2 r)) (col p.2 r) e),
      (fun r => msV (col p.2 r) e))) := by
  unfold MFA.msUV
  apply mapE_ok
  intro p hp
  rw [hm.getNj hp]

theorem Regular.spectrum (hm : Regular m J) (h1 : 1 ≤ j1) (h12 : j1 ≤ j2) (h2 : j2 ≤ J) (weighted : Bool)
    (q : QArg) (hq : q.expos ≠ []) :
    Spectrum.make m j1 j2 weighted q = .ok {
      formalism := m.formalism, nj := m.nj, j := m.values.keys, j1 := j1, j2 := j2
      weighted := weighted, q := q
      U := q.expos.map fun e => m.values.map fun p r => msU (countNotNaN (col p.2 r)) (col p.2 r) e
      V := q.expos.map fun e => m.values.map fun p r => msV (col p.2 r) e
      Dq := q.expos.map fun e r => Fl.fin 1 + uF m j1 j2 weighted e r
      hq := q.expos.map fun e => vF m j1 j2 weighted e } := by
  unfold Spectrum.make
  rw [hm.checkNrep h1 h12 h2]
  simp only
  rw [if_neg hq]
  have huv : mapE (MFA.msUV m) q.expos = .ok (q.expos.map fun e => m.values.map fun p =>
      ((fun r => msU (countNotNaN (col p.2 r)) (col p.2 r) e), (fun r => msV (col p.2 r) e))) :=
    mapE_ok _ _ _ (fun e _ => hm.msUV e)
  rw [huv]
  simp only
  rw [hm.weights h1 h12 h2]
  simp only [List.map_map, Function.comp_def]
  have hU : mapE (fun u => linearRegression (tileScales R j1 j2) (pySlice u (j1 - 1) j2)
      (.mat ((subR m j1 j2).map fun p r => Fl.fin (wtOf weighted p r))))
      (q.expos.map fun e => m.values.map fun p r => msU (countNotNaN (col p.2 r)) (col p.2 r) e)
      = .ok (q.expos.map fun e => { slope := uF m j1 j2 weighted e
                                    intercept := fun r => interL (subR m j1 j2) (fun p => (p.1 : ℝ))
                                      (fun p => wtOf weighted p r)
                                      (fun p => msU (countNotNaN (col p.2 r)) (col p.2 r) e)
                                    var := varF m j1 j2 weighted }) := by
    generalize q.expos = L
    induction L with
    | nil => rfl
    | cons e L ih =>
      rw [List.map_cons, mapE, hm.regression h1 h12 h2 weighted
        (fun p r => msU (countNotNaN (col p.2 r)) (col p.2 r) e)]
      simp only [ih]
      rfl
  have hV : mapE (fun u => linearRegression (tileScales R j1 j2) (pySlice u (j1 - 1) j2)
      (.mat ((subR m j1 j2).map fun p r => Fl.fin (wtOf weighted p r))))
      (q.expos.map fun e => m.values.map fun p r => msV (col p.2 r) e)
      = .ok (q.expos.map fun e => { slope := vF m j1 j2 weighted e
                                    intercept := fun r => interL (subR m j1 j2) (fun p => (p.1 : ℝ))
                                      (fun p => wtOf weighted p r) (fun p => msV (col p.2 r) e)
                                    var := varF m j1 j2 weighted }) := by
    generalize q.expos = L
    induction L with
    | nil => rfl
    | cons e L ih =>
      rw [List.map_cons, mapE, hm.regression h1 h12 h2 weighted (fun p r => msV (col p.2 r) e)]
      simp only [ih]
      rfl
  rw [hU]
  simp only
  rw [hV]
  simp only [List.map_map, Function.comp_def]

/-- hmin of a regular quantity whose scales have at least one row. -/
theorem Regular.hmin (hm : Regular m J) (h1 : 1 ≤ j1) (h12 : j1 ≤ j2) (h2 : j2 ≤ J) (weighted warn : Bool)
    (hrow : ∀ p ∈ m.values, p.2 ≠ []) :
    estimateHmin m j1 j2 weighted warn = .ok {
      hmin := hminF m j1 j2 weighted
      intercept := hminIF m j1 j2 weighted
      y := (subR m j1 j2).map fun p r => (nanmax ((col p.2 r).map Fl.abs)).log2
      warned := decide (∃ r, hminF m j1 j2 weighted r = Fl.fin 0) && warn } := by
  unfold estimateHmin
  have hk1 : ∃ v, getKey m.values 1 = .ok v := by
    have : (1:ℤ) ∈ m.values.map Prod.fst := by
      rw [hm.1, List.mem_map]; exact ⟨0, by rw [List.mem_range]; omega, by simp⟩
    obtain ⟨p, hp, e⟩ := List.mem_map.mp this
    exact ⟨p.2, by rw [← e]; exact hm.getValue hp⟩
  obtain ⟨v, hv⟩ := hk1
  rw [hv]
  simp only
  rw [if_neg (by omega)]
  have hsup : mapE (supCoeffs m) (arange j1 (j2 + 1))
      = .ok ((subR m j1 j2).map fun p => red nanmax (mapArr Fl.abs p.2)) := by
    rw [← hm.sub_keys h1 h12 h2]
    have : ∀ l : List (ℤ × Arr R), (∀ p ∈ l, p ∈ m.values) → mapE (supCoeffs m) (l.map Prod.fst)
        = .ok (l.map fun p => red nanmax (mapArr Fl.abs p.2)) := by
      intro l
      induction l with
      | nil => intro _; rfl
      | cons p l ih =>
        intro h
        have hp := h p (by simp)
        have hs : supCoeffs m p.1 = .ok (red nanmax (mapArr Fl.abs p.2)) := by
          unfold supCoeffs
          rw [hm.getValue hp]
          cases hc : p.2 with
          | nil => exact absurd hc (hrow p hp)
          | cons a t => rfl
        rw [List.map_cons, mapE, hs, ih (fun q hq => h q (by simp [hq]))]; rfl
    exact this _ (fun p hp => sub_mem hp)
  rw [hsup]
  simp only
  rw [hm.weights h1 h12 h2]
  simp only
  have hy : mapArr Fl.log2 ((subR m j1 j2).map fun p => red nanmax (mapArr Fl.abs p.2))
      = (subR m j1 j2).map fun p r => (nanmax ((col p.2 r).map Fl.abs)).log2 := by
    simp only [mapArr, List.map_map, Function.comp_def, red, col]
  rw [hy, hm.tile h1 h12 h2, linearRegression_map]
  rfl

end

end MFA
