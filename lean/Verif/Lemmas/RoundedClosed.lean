import Verif.Lemmas.RoundedStats

/-! Closed forms of the rounded estimators on regular quantities. -/

namespace MFA

open Classical Finset

namespace Machine

variable (M : Machine)

/-- Slope of the rounded regression of `y` on `x` with weights `w` over the list `l`. -/
noncomputable def slopeL {ι : Type} (l : List ι) (x w : ι → ℝ) (y : ι → Fl) : Fl :=
  M.dotB (M.lrWSlope (l.map fun p => Fl.fin (x p)) (l.map fun p => Fl.fin (w p))) (l.map y)

/-- Intercept of the rounded regression. -/
noncomputable def interL {ι : Type} (l : List ι) (x w : ι → ℝ) (y : ι → Fl) : Fl :=
  M.dotB (M.lrWInter (l.map fun p => Fl.fin (x p)) (l.map fun p => Fl.fin (w p))) (l.map y)

theorem linearRegression_map {ι : Type} {R : ℕ} (l : List ι) (x : ι → ℝ) (w : ι → Fin R → ℝ) (y : ι → Row R) :
    M.linearRegression (l.map fun p _ => Fl.fin (x p)) (l.map y) (.mat (l.map fun p r => Fl.fin (w p r))) = .ok {
      slope := fun r => M.slopeL l x (fun p => w p r) (fun p => y p r)
      intercept := fun r => M.interL l x (fun p => w p r) (fun p => y p r)
      var := fun r => M.lrVar (l.map fun p => Fl.fin (x p)) (l.map fun p => Fl.fin (w p r)) } := by
  simp only [linearRegression, List.length_map, ne_eq, not_true_eq_false, if_false, true_or, if_true, col,
    List.map_map, Function.comp_def, slopeL, interL]

variable {R : ℕ}

/-- zeta(e) of realisation r. -/
noncomputable def zetaF (m : MRQ R) (j1 j2 : ℤ) (weighted : Bool) (e : Expo) (r : Fin R) : Fl :=
  M.slopeL (subR m j1 j2) (fun p => (p.1 : ℝ)) (fun p => wtOf weighted p r) (fun p => M.log2 (M.sfMean p.2 e r))

noncomputable def zetaIF (m : MRQ R) (j1 j2 : ℤ) (weighted : Bool) (e : Expo) (r : Fin R) : Fl :=
  M.interL (subR m j1 j2) (fun p => (p.1 : ℝ)) (fun p => wtOf weighted p r) (fun p => M.log2 (M.sfMean p.2 e r))

/-- slope of the cumulant of order i+1. -/
noncomputable def cumF (m : MRQ R) (j1 j2 : ℤ) (weighted : Bool) (n i : ℕ) (r : Fin R) : Fl :=
  M.slopeL (subR m j1 j2) (fun p => (p.1 : ℝ)) (fun p => wtOf weighted p r)
    (fun p => (M.cmColumn (M.logAbsCol p.2 r) n).getD i Fl.nan)

noncomputable def cumIF (m : MRQ R) (j1 j2 : ℤ) (weighted : Bool) (n i : ℕ) (r : Fin R) : Fl :=
  M.interL (subR m j1 j2) (fun p => (p.1 : ℝ)) (fun p => wtOf weighted p r)
    (fun p => (M.cmColumn (M.logAbsCol p.2 r) n).getD i Fl.nan)

noncomputable def varF (m : MRQ R) (j1 j2 : ℤ) (weighted : Bool) (r : Fin R) : Fl :=
  M.lrVar ((subR m j1 j2).map fun p => Fl.fin (p.1 : ℝ)) ((subR m j1 j2).map fun p => Fl.fin (wtOf weighted p r))

noncomputable def uF (m : MRQ R) (j1 j2 : ℤ) (weighted : Bool) (e : Expo) (r : Fin R) : Fl :=
  M.slopeL (subR m j1 j2) (fun p => (p.1 : ℝ)) (fun p => wtOf weighted p r)
    (fun p => M.msU (countNotNaN (col p.2 r)) (col p.2 r) e)

noncomputable def vF (m : MRQ R) (j1 j2 : ℤ) (weighted : Bool) (e : Expo) (r : Fin R) : Fl :=
  M.slopeL (subR m j1 j2) (fun p => (p.1 : ℝ)) (fun p => wtOf weighted p r) (fun p => M.msV (col p.2 r) e)

noncomputable def hminF (m : MRQ R) (j1 j2 : ℤ) (weighted : Bool) (r : Fin R) : Fl :=
  M.slopeL (subR m j1 j2) (fun p => (p.1 : ℝ)) (fun p => wtOf weighted p r)
    (fun p => M.log2 (nanmax ((col p.2 r).map Fl.abs)))

noncomputable def hminIF (m : MRQ R) (j1 j2 : ℤ) (weighted : Bool) (r : Fin R) : Fl :=
  M.interL (subR m j1 j2) (fun p => (p.1 : ℝ)) (fun p => wtOf weighted p r)
    (fun p => M.log2 (nanmax ((col p.2 r).map Fl.abs)))


end Machine

section
variable (M : Machine) {R : ℕ} {m : MRQ R} {J : ℕ} {j1 j2 : ℤ}

theorem Regular.regressionM (hm : Regular m J) (h1 : 1 ≤ j1) (h12 : j1 ≤ j2) (h2 : j2 ≤ J) (weighted : Bool) (f : ℤ × Arr R → Row R) :
    M.linearRegression (tileScales R j1 j2) (pySlice (m.values.map f) (j1 - 1) j2)
      (.mat ((subR m j1 j2).map fun p r => Fl.fin (wtOf weighted p r))) = .ok {
      slope := fun r => M.slopeL (subR m j1 j2) (fun p => (p.1 : ℝ)) (fun p => wtOf weighted p r) (fun p => f p r)
      intercept := fun r => M.interL (subR m j1 j2) (fun p => (p.1 : ℝ)) (fun p => wtOf weighted p r)
        (fun p => f p r)
      var := fun r => M.lrVar ((subR m j1 j2).map fun p => Fl.fin (p.1 : ℝ))
        ((subR m j1 j2).map fun p => Fl.fin (wtOf weighted p r)) } := by
  rw [hm.tile h1 h12 h2, slice_sub]
  exact M.linearRegression_map _ _ _ _

theorem Regular.sfRegressionsM (hm : Regular m J) (h1 : 1 ≤ j1) (h12 : j1 ≤ j2) (h2 : j2 ≤ J) (weighted : Bool)
    (q : List Expo) :
    M.sfRegressions m (M.sfLogValues m q) j1 j2 weighted = .ok (q.map fun e =>
      { slope := M.zetaF m j1 j2 weighted e, intercept := M.zetaIF m j1 j2 weighted e
        var := M.varF m j1 j2 weighted }) := by
  unfold Machine.sfRegressions
  rw [hm.weights h1 h12 h2]
  simp only
  unfold Machine.sfLogValues
  induction q with
  | nil => rfl
  | cons e q ih =>
    rw [List.map_cons, mapE, hm.regressionM M h1 h12 h2 weighted (fun p r => M.log2 (M.sfMean p.2 e r))]
    simp only [ih]
    rfl

/-- The structure function of a regular quantity, for a numpy array `q`. -/
theorem Regular.structFnM (hm : Regular m J) (h1 : 1 ≤ j1) (h12 : j1 ≤ j2) (h2 : j2 ≤ J) (weighted : Bool)
    (q : List ℝ) (hq : (2:ℝ) ∈ q) :
    M.structFn m (.ndarray q) j1 j2 weighted = .ok {
      formalism := m.formalism, gamint := m.gamint, j := m.values.keys, q := .ndarray q
      j1 := j1, j2 := j2, weighted := weighted
      logvalues := M.sfLogValues m (q.map Expo.real)
      zeta := q.map fun e => M.zetaF m j1 j2 weighted (.real e)
      intercept := q.map fun e => M.zetaIF m j1 j2 weighted (.real e)
      H := fun r => M.sub (M.div (M.zetaF m j1 j2 weighted (.real 2) r) (Fl.fin 2)) (Fl.fin m.gamint) } := by
  unfold Machine.structFn
  rw [hm.checkNrep h1 h12 h2, expos_ndarray]
  simp only
  rw [hm.sfRegressionsM M h1 h12 h2]
  simp only [List.map_map, Function.comp_def, Machine.sfGetH]
  rw [maskEq_map q 2 (fun e => M.zetaF m j1 j2 weighted (.real e))]
  obtain ⟨l, hl⟩ := filter_eq_head hq
  rw [hl]
  rfl

theorem Regular.cumulantsM (hm : Regular m J) (h1 : 1 ≤ j1) (h12 : j1 ≤ j2) (h2 : j2 ≤ J) (weighted : Bool)
    (n : ℕ) :
    M.cumulants m n j1 j2 weighted = .ok {
      formalism := m.formalism, nj := m.nj, j := m.values.keys, n_cumul := n
      j1 := j1, j2 := j2, weighted := weighted, values := M.cmValues m n
      log_cumulants := (List.range n).map fun i r => M.mul (M.cumF m j1 j2 weighted n i r) M.log2e
      var_log_cumulants := (List.range n).map fun _ r => M.mul (M.pow M.log2e 2) (M.varF m j1 j2 weighted r)
      slope := (List.range n).map fun i => M.cumF m j1 j2 weighted n i
      intercept := (List.range n).map fun i => M.cumIF m j1 j2 weighted n i } := by
  unfold Machine.cumulants
  rw [hm.checkNrep h1 h12 h2]
  simp only
  rw [hm.weights h1 h12 h2]
  simp only
  have : mapE (fun v => M.linearRegression (tileScales R j1 j2) (pySlice v (j1 - 1) j2)
      (.mat ((subR m j1 j2).map fun p r => Fl.fin (wtOf weighted p r)))) (M.cmValues m n)
      = .ok ((List.range n).map fun i => { slope := M.cumF m j1 j2 weighted n i
                                           intercept := M.cumIF m j1 j2 weighted n i
                                           var := M.varF m j1 j2 weighted }) := by
    unfold Machine.cmValues
    generalize List.range n = L
    induction L with
    | nil => rfl
    | cons i L ih =>
      rw [List.map_cons, mapE, hm.regressionM M h1 h12 h2 weighted
        (fun p r => (M.cmColumn (M.logAbsCol p.2 r) n).getD i Fl.nan)]
      simp only [ih]
      rfl
  rw [this]
  simp only [List.map_map, Function.comp_def]

theorem Regular.msUVM (hm : Regular m J) (e : Expo) :
    M.msUV m e = .ok (m.values.map fun p => ((fun r => M.msU (countNotNaN (col p.2 r)) (col p.2 r) e),
      (fun r => M.msV (col p.2 r) e))) := by
  unfold Machine.msUV
  apply mapE_ok
  intro p hp
  rw [hm.getNj hp]

theorem Regular.spectrumM (hm : Regular m J) (h1 : 1 ≤ j1) (h12 : j1 ≤ j2) (h2 : j2 ≤ J) (weighted : Bool)
    (q : QArg) (hq : q.expos ≠ []) :
    M.spectrum m j1 j2 weighted q = .ok {
      formalism := m.formalism, nj := m.nj, j := m.values.keys, j1 := j1, j2 := j2
      weighted := weighted, q := q
      U := q.expos.map fun e => m.values.map fun p r => M.msU (countNotNaN (col p.2 r)) (col p.2 r) e
      V := q.expos.map fun e => m.values.map fun p r => M.msV (col p.2 r) e
      Dq := q.expos.map fun e r => M.add (Fl.fin 1) (M.uF m j1 j2 weighted e r)
      hq := q.expos.map fun e => M.vF m j1 j2 weighted e } := by
  unfold Machine.spectrum
  rw [hm.checkNrep h1 h12 h2]
  simp only
  rw [if_neg hq]
  have huv : mapE (M.msUV m) q.expos = .ok (q.expos.map fun e => m.values.map fun p =>
      ((fun r => M.msU (countNotNaN (col p.2 r)) (col p.2 r) e), (fun r => M.msV (col p.2 r) e))) :=
    mapE_ok _ _ _ (fun e _ => hm.msUVM M e)
  rw [huv]
  simp only
  rw [hm.weights h1 h12 h2]
  simp only [List.map_map, Function.comp_def]
  have hU : mapE (fun u => M.linearRegression (tileScales R j1 j2) (pySlice u (j1 - 1) j2)
      (.mat ((subR m j1 j2).map fun p r => Fl.fin (wtOf weighted p r))))
      (q.expos.map fun e => m.values.map fun p r => M.msU (countNotNaN (col p.2 r)) (col p.2 r) e)
      = .ok (q.expos.map fun e => { slope := M.uF m j1 j2 weighted e
                                    intercept := fun r => M.interL (subR m j1 j2) (fun p => (p.1 : ℝ))
                                      (fun p => wtOf weighted p r)
                                      (fun p => M.msU (countNotNaN (col p.2 r)) (col p.2 r) e)
                                    var := M.varF m j1 j2 weighted }) := by
    generalize q.expos = L
    induction L with
    | nil => rfl
    | cons e L ih =>
      rw [List.map_cons, mapE, hm.regressionM M h1 h12 h2 weighted
        (fun p r => M.msU (countNotNaN (col p.2 r)) (col p.2 r) e)]
      simp only [ih]
      rfl
  have hV : mapE (fun u => M.linearRegression (tileScales R j1 j2) (pySlice u (j1 - 1) j2)
      (.mat ((subR m j1 j2).map fun p r => Fl.fin (wtOf weighted p r))))
      (q.expos.map fun e => m.values.map fun p r => M.msV (col p.2 r) e)
      = .ok (q.expos.map fun e => { slope := M.vF m j1 j2 weighted e
                                    intercept := fun r => M.interL (subR m j1 j2) (fun p => (p.1 : ℝ))
                                      (fun p => wtOf weighted p r) (fun p => M.msV (col p.2 r) e)
                                    var := M.varF m j1 j2 weighted }) := by
    generalize q.expos = L
    induction L with
    | nil => rfl
    | cons e L ih =>
      rw [List.map_cons, mapE, hm.regressionM M h1 h12 h2 weighted (fun p r => M.msV (col p.2 r) e)]
      simp only [ih]
      rfl
  rw [hU]
  simp only
  rw [hV]
  simp only [List.map_map, Function.comp_def]

/-- hmin of a regular quantity whose scales have at least one row. -/
theorem Regular.hminM (hm : Regular m J) (h1 : 1 ≤ j1) (h12 : j1 ≤ j2) (h2 : j2 ≤ J) (weighted warn : Bool)
    (hrow : ∀ p ∈ m.values, p.2 ≠ []) :
    M.estimateHmin m j1 j2 weighted warn = .ok {
      hmin := M.hminF m j1 j2 weighted
      intercept := M.hminIF m j1 j2 weighted
      y := (subR m j1 j2).map fun p r => M.log2 (nanmax ((col p.2 r).map Fl.abs))
      warned := decide (∃ r, M.hminF m j1 j2 weighted r = Fl.fin 0) && warn } := by
  unfold Machine.estimateHmin
  have hk1 : ∃ v, getKey m.values 1 = .ok v := by
    have : (1:ℤ) ∈ m.values.map Prod.fst := by
      rw [hm.1, List.mem_map]; exact ⟨0, by rw [List.mem_range]; omega, by simp⟩
    obtain ⟨p, hp, e⟩ := List.mem_map.mp this
    exact ⟨p.2, by rw [← e]; exact hm.getValue hp⟩
  obtain ⟨v, hv⟩ := hk1
  rw [hv]
  simp only
  rw [if_neg (by omega)]
  have hsup : mapE (supCoeffs m) (arange j1 (j2 + 1))
      = .ok ((subR m j1 j2).map fun p => red nanmax (mapArr Fl.abs p.2)) := by
    rw [← hm.sub_keys h1 h12 h2]
    have : ∀ l : List (ℤ × Arr R), (∀ p ∈ l, p ∈ m.values) → mapE (supCoeffs m) (l.map Prod.fst)
        = .ok (l.map fun p => red nanmax (mapArr Fl.abs p.2)) := by
      intro l
      induction l with
      | nil => intro _; rfl
      | cons p l ih =>
        intro h
        have hp := h p (by simp)
        have hs : supCoeffs m p.1 = .ok (red nanmax (mapArr Fl.abs p.2)) := by
          unfold supCoeffs
          rw [hm.getValue hp]
          cases hc : p.2 with
          | nil => exact absurd hc (hrow p hp)
          | cons a t => rfl
        rw [List.map_cons, mapE, hs, ih (fun q hq => h q (by simp [hq]))]; rfl
    exact this _ (fun p hp => sub_mem hp)
  rw [hsup]
  simp only
  rw [hm.weights h1 h12 h2]
  simp only
  have hy : mapArr M.log2 ((subR m j1 j2).map fun p => red nanmax (mapArr Fl.abs p.2))
      = (subR m j1 j2).map fun p r => M.log2 (nanmax ((col p.2 r).map Fl.abs)) := by
    simp only [mapArr, List.map_map, Function.comp_def, red, col]
  rw [hy, hm.tile h1 h12 h2, M.linearRegression_map]
  rfl

end

end MFA
