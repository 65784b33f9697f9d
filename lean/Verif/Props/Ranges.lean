import Verif.Props.Mfa
import Verif.Props.Regression

/-! # C53: unweighted regressions over arbitrary integer ranges -/

namespace MFA

open Classical

noncomputable section

variable {R : ℕ}

/-- How many of the `J` available scales python's slice `[j1-1:j2]` selects: bounds below zero count from the end, bounds
outside are clamped. -/
def selectedScales (J : ℕ) (j1 j2 : ℤ) : ℤ :=
  let start : ℤ := if j1 - 1 < 0 then max ((J : ℤ) + (j1 - 1)) 0 else min (j1 - 1) J
  let stop : ℤ := if j2 < 0 then max ((J : ℤ) + j2) 0 else min j2 J
  max (stop - start) 0

theorem pySlice_selected {α : Type} (l : List α) {J : ℕ} (hl : l.length = J) (j1 j2 : ℤ) :
    ((pySlice l (j1 - 1) j2).length : ℤ) = selectedScales J j1 j2 := by
  unfold pySlice sliceBound selectedScales
  simp only [List.length_drop, List.length_take, hl]
  by_cases h1 : j1 - 1 < 0 <;> by_cases h2 : j2 < 0 <;> simp only [h1, h2, if_true, if_false] <;> omega

theorem reg_ones (y : Arr R) (j1 j2 : ℤ) :
    linearRegression (tileScales R j1 j2) y (.mat ((arange j1 (j2 + 1)).map fun _ _ => Fl.fin 1)) =
      if ((j2 + 1 - j1).toNat = y.length ∨ (j2 + 1 - j1).toNat = 1 ∨ y.length = 1) then .ok {
            slope := fun r => dotB (lrWSlope (col (tileScales R j1 j2) r)
              (col ((arange j1 (j2 + 1)).map fun _ _ => Fl.fin 1) r)) (col y r)
            intercept := fun r => dotB (lrWInter (col (tileScales R j1 j2) r)
              (col ((arange j1 (j2 + 1)).map fun _ _ => Fl.fin 1) r)) (col y r)
            var := fun r => lrVar (col (tileScales R j1 j2) r)
              (col ((arange j1 (j2 + 1)).map fun _ _ => Fl.fin 1) r) }
      else .error .valueError := by
  unfold linearRegression
  simp only [tileScales, List.length_map, arange_length]
  simp only [ne_eq, not_true_eq_false, if_false]

theorem mapE_reg_error (j1 j2 : ℤ) (L : List (Arr R)) (hL : L ≠ [])
    (h : ∀ y ∈ L, linearRegression (tileScales R j1 j2) (pySlice y (j1 - 1) j2)
      (.mat ((arange j1 (j2 + 1)).map fun _ _ => Fl.fin 1)) = .error .valueError) :
    mapE (fun y => linearRegression (tileScales R j1 j2) (pySlice y (j1 - 1) j2)
      (.mat ((arange j1 (j2 + 1)).map fun _ _ => Fl.fin 1))) L = .error .valueError := by
  cases L with
  | nil => exact absurd rfl hL
  | cons a L => rw [mapE, h a (by simp)]

/-- **C53**, errors: for any range `j1 <= j2` of at least two scales, an unweighted regression raises ValueError in the three
estimators unless python's slice selects as many scales as the range has, or exactly one. -/
theorem C53_unweighted_error {m : MRQ R} {J : ℕ} (hm : Regular m J) (hJ : 0 < J) {j1 j2 : ℤ} (h12 : j1 < j2)
    (hk : selectedScales J j1 j2 ≠ j2 - j1 + 1) (hk1 : selectedScales J j1 j2 ≠ 1) (q : List ℝ) (hq : q ≠ []) (n : ℕ) (hn : 0 < n) :
    StructFn.make m (.ndarray q) j1 j2 false = .error .valueError ∧
    Cumulants.make m n j1 j2 false = .error .valueError ∧
    Spectrum.make m j1 j2 false (.ndarray q) = .error .valueError := by
  have hc : m.checkNrep = .ok () := hm.checkNrep (j1 := 1) (j2 := 1) le_rfl le_rfl (by omega)
  have hqe : (QArg.ndarray q).expos ≠ [] := by simpa [QArg.expos] using hq
  have hw : regWeights m.nj j1 j2 false = .ok (.mat ((arange j1 (j2 + 1)).map fun _ _ => Fl.fin 1)) := rfl
  have key : ∀ y : Arr R, y.length = J → linearRegression (tileScales R j1 j2) (pySlice y (j1 - 1) j2)
      (.mat ((arange j1 (j2 + 1)).map fun _ _ => Fl.fin 1)) = .error .valueError := by
    intro y hy
    have hs := pySlice_selected y hy j1 j2
    rw [reg_ones, if_neg]
    omega
  refine ⟨?_, ?_, ?_⟩
  · unfold StructFn.make; rw [hc]; simp only; unfold sfRegressions; rw [hw]; simp only
    rw [mapE_reg_error]
    · simpa [sfLogValues] using hqe
    · intro y hy
      obtain ⟨e, -, rfl⟩ := List.mem_map.mp hy
      exact key _ (by rw [List.length_map, hm.length])
  · unfold Cumulants.make; rw [hc]; simp only; rw [hw]; simp only
    rw [mapE_reg_error]
    · simp [cmValues]; omega
    · intro y hy
      obtain ⟨e, -, rfl⟩ := List.mem_map.mp hy
      exact key _ (by rw [List.length_map, hm.length])
  · unfold Spectrum.make; rw [hc]; simp only; rw [if_neg hqe, mapE_ok _ _ _ (fun e _ => hm.msUV e)]
    simp only; rw [hw]; simp only
    rw [mapE_reg_error]
    · simpa using hqe
    · intro y hy
      simp only [List.map_map, List.mem_map, Function.comp] at hy
      obtain ⟨e, -, rfl⟩ := hy
      exact key _ (by rw [List.length_map, hm.length])

theorem tileScales_real (j1 : ℤ) (n : ℕ) :
    tileScales R j1 (j1 + n - 1) = realArr (fun (i : Fin n) (_ : Fin R) => (j1 : ℝ) + ((i : ℕ) : ℝ)) := by
  unfold tileScales arange realArr
  rw [List.map_map]
  have e : (j1 + n - 1 + 1 - j1).toNat = n := by omega
  rw [e]
  apply List.ext_getElem (by simp)
  intro i h1 h2
  simp only [List.getElem_map, List.getElem_range, List.getElem_ofFn, Function.comp]
  funext r
  push_cast
  rfl

theorem ones_real (j1 : ℤ) (n : ℕ) :
    ((arange j1 (j1 + n - 1 + 1)).map fun _ (_ : Fin R) => Fl.fin 1) = realArr (fun (_ : Fin n) (_ : Fin R) => (1 : ℝ)) := by
  unfold arange realArr
  rw [List.map_map]
  have e : (j1 + n - 1 + 1 - j1).toNat = n := by omega
  rw [e]
  apply List.ext_getElem (by simp)
  intro i h1 h2
  simp

/-- Translating the scales changes neither the slope nor its variance. -/
theorem reg_shift (t : ℤ) {j1 j2 : ℤ} (h12 : j1 < j2) (y : Arr R) (hy : (y.length : ℤ) = j2 - j1 + 1) :
    ∃ g g' : LinReg R,
      linearRegression (tileScales R j1 j2) y (.mat ((arange j1 (j2 + 1)).map fun _ _ => Fl.fin 1)) = .ok g ∧
      linearRegression (tileScales R (j1 + t) (j2 + t)) y (.mat ((arange (j1 + t) (j2 + t + 1)).map fun _ _ => Fl.fin 1)) = .ok g' ∧
      g'.slope = g.slope ∧ g'.var = g.var := by
  obtain ⟨n, hn⟩ : ∃ n : ℕ, n = y.length := ⟨_, rfl⟩
  obtain rfl : j2 = j1 + n - 1 := by omega
  have hyf : y = flArr (fun (i : Fin n) r => (y[(i : ℕ)]'(by rw [← hn]; exact i.2)) r) := by
    unfold flArr
    apply List.ext_getElem (by simp [hn])
    intro i h1 h2
    simp
  have hn2 : 2 ≤ n := by omega
  obtain ⟨g, g', hg, hg', h1, h2⟩ := C24_translation_invariant (R := R) (fun (i : Fin n) (_ : Fin R) => (j1 : ℝ) + ((i : ℕ) : ℝ))
    (fun _ _ => 1) (fun (i : Fin n) r => (y[(i : ℕ)]'(by rw [← hn]; exact i.2)) r) (fun _ => (t : ℝ)) (fun _ _ => one_pos)
    (fun _ => ⟨⟨0, by omega⟩, ⟨1, by omega⟩, by simp⟩)
  rw [← hyf] at hg hg'
  refine ⟨g, g', ?_, ?_, h1, h2⟩
  · rw [tileScales_real, ones_real, hg]
  · have e2 : j1 + n - 1 + t = (j1 + t) + n - 1 := by ring
    rw [e2, tileScales_real, ones_real, ← hg']
    congr 2
    funext i r
    push_cast
    ring

theorem mapE_shift (t : ℤ) {j1 j2 : ℤ} (h12 : j1 < j2) (L : List (Arr R))
    (h : ∀ y ∈ L, ((pySlice y (j1 - 1) j2).length : ℤ) = j2 - j1 + 1 ∧
      pySlice y (j1 + t - 1) (j2 + t) = pySlice y (j1 - 1) j2) :
    ∃ l l' : List (LinReg R),
      mapE (fun y => linearRegression (tileScales R j1 j2) (pySlice y (j1 - 1) j2)
        (.mat ((arange j1 (j2 + 1)).map fun _ _ => Fl.fin 1))) L = .ok l ∧
      mapE (fun y => linearRegression (tileScales R (j1 + t) (j2 + t)) (pySlice y (j1 + t - 1) (j2 + t))
        (.mat ((arange (j1 + t) (j2 + t + 1)).map fun _ _ => Fl.fin 1))) L = .ok l' ∧
      l'.map LinReg.slope = l.map LinReg.slope ∧ l'.map LinReg.var = l.map LinReg.var := by
  induction L with
  | nil => exact ⟨[], [], rfl, rfl, rfl, rfl⟩
  | cons a L ih =>
    obtain ⟨l, l', hl, hl', hs, hv⟩ := ih fun y hy => h y (by simp [hy])
    obtain ⟨hlen, heq⟩ := h a (by simp)
    obtain ⟨g, g', hg, hg', h1, h2⟩ := reg_shift t h12 (pySlice a (j1 - 1) j2) hlen
    refine ⟨g :: l, g' :: l', ?_, ?_, by simp [hs, h1], by simp [hv, h2]⟩
    · rw [mapE, hg, hl]
    · rw [mapE, heq, hg', hl']

theorem pySlice_shift {α : Type} (l : List α) {J : ℕ} (hl : l.length = J) {j1 j2 : ℤ} (h1 : 1 - (J : ℤ) ≤ j1) (h12 : j1 ≤ j2)
    (h2 : j2 < 0) : pySlice l (j1 + J - 1) (j2 + J) = pySlice l (j1 - 1) j2 := by
  unfold pySlice sliceBound
  rw [hl, if_neg (by omega), if_neg (by omega), if_pos h2, if_pos (by omega)]
  congr 1
  · omega
  · congr 1
    omega

theorem map_slope_comp {S : Type} {l l' : List (LinReg R)} (f : (Fin R → Fl) → S)
    (h : l'.map LinReg.slope = l.map LinReg.slope) :
    l'.map (fun g => f g.slope) = l.map (fun g => f g.slope) := by
  have := congrArg (List.map f) h
  rw [List.map_map, List.map_map] at this
  exact this

/-- **C53**, negative ranges: for `1-J <= j1 < j2 < 0` the unweighted estimators silently count the scales from the end: the
exponents are those of the range `j1+J .. j2+J`. -/
theorem C53_unweighted_negative {m : MRQ R} {J : ℕ} (hm : Regular m J) {j1 j2 : ℤ} (h1 : 1 - (J : ℤ) ≤ j1)
    (h12 : j1 < j2) (h2 : j2 < 0) (q : List ℝ) (hq : (2:ℝ) ∈ q) (n : ℕ) :
    (∃ s s', StructFn.make m (.ndarray q) j1 j2 false = .ok s ∧ StructFn.make m (.ndarray q) (j1 + J) (j2 + J) false = .ok s' ∧
      s.zeta = s'.zeta ∧ s.H = s'.H) ∧
    (∃ c c', Cumulants.make m n j1 j2 false = .ok c ∧ Cumulants.make m n (j1 + J) (j2 + J) false = .ok c' ∧
      c.log_cumulants = c'.log_cumulants ∧ c.var_log_cumulants = c'.var_log_cumulants) ∧
    (∃ d d', Spectrum.make m j1 j2 false (.ndarray q) = .ok d ∧ Spectrum.make m (j1 + J) (j2 + J) false (.ndarray q) = .ok d' ∧
      d.hq = d'.hq ∧ d.Dq = d'.Dq) := by
  have hc : m.checkNrep = .ok () := hm.checkNrep (j1 := 1) (j2 := 1) le_rfl le_rfl (by omega)
  have hqe : (QArg.ndarray q).expos ≠ [] := by
    intro hc'
    simp only [QArg.expos, List.map_eq_nil_iff] at hc'
    rw [hc'] at hq; cases hq
  have hw : regWeights m.nj j1 j2 false = .ok (.mat ((arange j1 (j2 + 1)).map fun _ _ => Fl.fin 1)) := rfl
  have hw' : regWeights m.nj (j1 + J) (j2 + J) false = .ok (.mat ((arange (j1 + J) (j2 + J + 1)).map fun _ _ => Fl.fin 1)) := rfl
  have key : ∀ y : Arr R, y.length = J → ((pySlice y (j1 - 1) j2).length : ℤ) = j2 - j1 + 1 ∧
      pySlice y (j1 + J - 1) (j2 + J) = pySlice y (j1 - 1) j2 := by
    intro y hy
    refine ⟨?_, pySlice_shift y hy h1 h12.le h2⟩
    rw [pySlice_selected y hy]
    unfold selectedScales
    have h3 : j1 - 1 < 0 := by omega
    simp only [h2, h3, if_true]
    omega
  refine ⟨?_, ?_, ?_⟩
  · obtain ⟨l, l', hl, hl', hs, -⟩ := mapE_shift J h12 (sfLogValues m (QArg.ndarray q).expos) (by
      intro y hy
      obtain ⟨e, -, rfl⟩ := List.mem_map.mp hy
      exact key _ (by rw [List.length_map, hm.length]))
    have hH : ∃ H, sfGetH (.ndarray q) (l.map LinReg.slope) m.gamint = .ok H := by
      have hs' := hm.structFn (j1 := j1 + J) (j2 := j2 + J) (by omega) (by omega) (by omega) false q hq
      unfold StructFn.make MFA.sfRegressions at hs'
      rw [hc, hw'] at hs'
      simp only [] at hs'
      rw [hl'] at hs'
      simp only [] at hs'
      rw [hs] at hs'
      cases hh : sfGetH (.ndarray q) (l.map LinReg.slope) m.gamint with
      | error e => rw [hh] at hs'; cases hs'
      | ok H => exact ⟨H, rfl⟩
    obtain ⟨H, hH⟩ := hH
    have A : ∃ s, StructFn.make m (.ndarray q) j1 j2 false = .ok s ∧ s.zeta = l.map LinReg.slope ∧ s.H = H := by
      unfold StructFn.make sfRegressions
      rw [hc]; simp only []
      rw [hw]; simp only []
      rw [hl]; simp only []
      rw [hH]
      exact ⟨_, rfl, rfl, rfl⟩
    have B : ∃ s, StructFn.make m (.ndarray q) (j1 + J) (j2 + J) false = .ok s ∧ s.zeta = l.map LinReg.slope ∧ s.H = H := by
      unfold StructFn.make sfRegressions
      rw [hc]; simp only []
      rw [hw']; simp only []
      rw [hl']; simp only []
      rw [hs, hH]
      exact ⟨_, rfl, rfl, rfl⟩
    obtain ⟨s, hs, hz, hHs⟩ := A
    obtain ⟨s', hs', hz', hHs'⟩ := B
    exact ⟨s, s', hs, hs', hz.trans hz'.symm, hHs.trans hHs'.symm⟩
  · obtain ⟨l, l', hl, hl', hs, hv⟩ := mapE_shift J h12 (cmValues m n) (by
      intro y hy
      obtain ⟨e, -, rfl⟩ := List.mem_map.mp hy
      exact key _ (by rw [List.length_map, hm.length]))
    have A : ∃ c, Cumulants.make m n j1 j2 false = .ok c ∧ c.log_cumulants = l.map (fun g r => g.slope r * Fl.fin log2e) ∧
        c.var_log_cumulants = l.map (fun g r => Fl.fin (log2e ^ 2) * g.var r) := by
      unfold Cumulants.make
      rw [hc]; simp only []
      rw [hw]; simp only []
      rw [hl]
      exact ⟨_, rfl, rfl, rfl⟩
    have B : ∃ c, Cumulants.make m n (j1 + J) (j2 + J) false = .ok c ∧
        c.log_cumulants = l'.map (fun g r => g.slope r * Fl.fin log2e) ∧
        c.var_log_cumulants = l'.map (fun g r => Fl.fin (log2e ^ 2) * g.var r) := by
      unfold Cumulants.make
      rw [hc]; simp only []
      rw [hw']; simp only []
      rw [hl']
      exact ⟨_, rfl, rfl, rfl⟩
    obtain ⟨c, hc1, hc2, hc3⟩ := A
    obtain ⟨c', hc1', hc2', hc3'⟩ := B
    refine ⟨c, c', hc1, hc1', ?_, ?_⟩
    · rw [hc2, hc2']; exact (map_slope_comp (fun s r => s r * Fl.fin log2e) hs).symm
    · rw [hc3, hc3']
      have := congrArg (List.map fun (s : Fin R → Fl) r => Fl.fin (log2e ^ 2) * s r) hv
      rw [List.map_map, List.map_map] at this
      exact this.symm
  · have huv := mapE_ok _ _ (QArg.ndarray q).expos (fun e _ => hm.msUV e)
    obtain ⟨u, u', hu, hu', hus, -⟩ := mapE_shift J h12 (((QArg.ndarray q).expos.map fun e =>
      m.values.map fun p => ((fun r => msU (countNotNaN (col p.2 r)) (col p.2 r) e), (fun r => msV (col p.2 r) e))).map
        fun l => l.map Prod.fst) (by
      intro y hy
      simp only [List.map_map, List.mem_map, Function.comp] at hy
      obtain ⟨e, -, rfl⟩ := hy
      exact key _ (by rw [List.length_map, hm.length]))
    obtain ⟨v, v', hv, hv', hvs, -⟩ := mapE_shift J h12 (((QArg.ndarray q).expos.map fun e =>
      m.values.map fun p => ((fun r => msU (countNotNaN (col p.2 r)) (col p.2 r) e), (fun r => msV (col p.2 r) e))).map
        fun l => l.map Prod.snd) (by
      intro y hy
      simp only [List.map_map, List.mem_map, Function.comp] at hy
      obtain ⟨e, -, rfl⟩ := hy
      exact key _ (by rw [List.length_map, hm.length]))
    have A : ∃ d, Spectrum.make m j1 j2 false (.ndarray q) = .ok d ∧ d.hq = v.map LinReg.slope ∧
        d.Dq = u.map (fun g r => Fl.fin 1 + g.slope r) := by
      unfold Spectrum.make
      rw [hc]; simp only []
      rw [if_neg hqe, huv]; simp only []
      rw [hw]; simp only []
      rw [hu]; simp only []
      rw [hv]
      exact ⟨_, rfl, rfl, rfl⟩
    have B : ∃ d, Spectrum.make m (j1 + J) (j2 + J) false (.ndarray q) = .ok d ∧ d.hq = v'.map LinReg.slope ∧
        d.Dq = u'.map (fun g r => Fl.fin 1 + g.slope r) := by
      unfold Spectrum.make
      rw [hc]; simp only []
      rw [if_neg hqe, huv]; simp only []
      rw [hw']; simp only []
      rw [hu']; simp only []
      rw [hv']
      exact ⟨_, rfl, rfl, rfl⟩
    obtain ⟨d, hd1, hd2, hd3⟩ := A
    obtain ⟨d', hd1', hd2', hd3'⟩ := B
    refine ⟨d, d', hd1, hd1', ?_, ?_⟩
    · rw [hd2, hd2', hvs]
    · rw [hd3, hd3']; exact (map_slope_comp (fun s r => Fl.fin 1 + s r) hus).symm

/-- **C53**, one selected scale: for every range `j1 < j2` for which python's slice selects exactly one scale, the structure function
silently returns the slope 0 for all exponents. -/
theorem C53_unweighted_one_scale {m : MRQ R} {J : ℕ} (hm : Regular m J) (hJ : 0 < J) {j1 j2 : ℤ} (h12 : j1 < j2)
    (hk : selectedScales J j1 j2 = 1) (q : List ℝ) (hq : (2:ℝ) ∈ q) (hd : NonzeroData m) :
    ∃ s, StructFn.make m (.ndarray q) j1 j2 false = .ok s ∧ s.zeta = q.map (fun _ _ => Fl.fin 0) ∧
      s.H = fun _ => Fl.fin (-m.gamint) := by
  have hs := pySlice_selected m.values hm.length j1 j2
  obtain ⟨p, hp, hsl⟩ := single_row (m := m) (a := j1 - 1) (b := j2) (by omega)
  exact silent_core hm hJ h12 q hq hd hp hsl

/-- If every unweighted regression over the range has slope 0, the estimators return 0 for all exponents, log-cumulants and `h(q)`, and 1 for `D(q)`. -/
theorem zero_core {m : MRQ R} {J : ℕ} (hm : Regular m J) (hJ : 0 < J) {j1 j2 : ℤ} (key : ∀ y : Arr R, y.length = J → ∃ g : LinReg R, (g.slope = fun _ => Fl.fin 0) ∧
      linearRegression (tileScales R j1 j2) (pySlice y (j1 - 1) j2) (.mat ((arange j1 (j2 + 1)).map fun _ _ => Fl.fin 1)) = .ok g)
    (q : List ℝ) (hq : (2:ℝ) ∈ q) (n : ℕ) :
    (∃ s, StructFn.make m (.ndarray q) j1 j2 false = .ok s ∧ s.zeta = q.map (fun _ _ => Fl.fin 0) ∧
      s.H = fun _ => Fl.fin (-m.gamint)) ∧
    (∃ c, Cumulants.make m n j1 j2 false = .ok c ∧ c.log_cumulants = List.replicate n (fun _ => Fl.fin 0)) ∧
    (∃ d, Spectrum.make m j1 j2 false (.ndarray q) = .ok d ∧ d.hq = q.map (fun _ _ => Fl.fin 0) ∧
      d.Dq = q.map (fun _ _ => Fl.fin 1)) := by
  have hc : m.checkNrep = .ok () := hm.checkNrep (j1 := 1) (j2 := 1) le_rfl le_rfl (by omega)
  have hqe : (QArg.ndarray q).expos ≠ [] := by
    intro hc'
    simp only [QArg.expos, List.map_eq_nil_iff] at hc'
    rw [hc'] at hq; cases hq
  have hw : regWeights m.nj j1 j2 false = .ok (.mat ((arange j1 (j2 + 1)).map fun _ _ => Fl.fin 1)) := rfl
  have keyE : ∀ L : List (Arr R), (∀ y ∈ L, y.length = J) → ∃ l : List (LinReg R),
      mapE (fun y => linearRegression (tileScales R j1 j2) (pySlice y (j1 - 1) j2)
        (.mat ((arange j1 (j2 + 1)).map fun _ _ => Fl.fin 1))) L = .ok l ∧ l.map LinReg.slope = L.map fun _ _ => Fl.fin 0 := by
    intro L
    induction L with
    | nil => intro _; exact ⟨[], rfl, rfl⟩
    | cons a L ih =>
      intro h
      obtain ⟨l, hl, hs⟩ := ih fun y hy => h y (by simp [hy])
      obtain ⟨g, hg0, hg⟩ := key a (h a (by simp))
      refine ⟨g :: l, ?_, by simp [hs, hg0]⟩
      rw [mapE, hg, hl]
  refine ⟨?_, ?_, ?_⟩
  · obtain ⟨l, hl, hs⟩ := keyE (sfLogValues m (QArg.ndarray q).expos) (by
      intro y hy
      obtain ⟨e, -, rfl⟩ := List.mem_map.mp hy
      rw [List.length_map, hm.length])
    have hs2 : l.map LinReg.slope = q.map (fun _ _ => Fl.fin 0) := by
      rw [hs]; simp [sfLogValues, QArg.expos, Function.comp_def]
    obtain ⟨tl, htl⟩ := filter_eq_head hq
    have hH : sfGetH (.ndarray q) (l.map LinReg.slope) m.gamint = .ok fun _ => Fl.fin (-m.gamint) := by
      rw [hs2]
      simp only [sfGetH]
      rw [maskEq_map q 2 (fun _ (_ : Fin R) => Fl.fin 0), htl]
      simp only [List.map_cons]
      congr 1
      funext r
      rw [Fl.fin_div (by norm_num : (2:ℝ) ≠ 0), Fl.fin_sub]
      norm_num
    unfold StructFn.make sfRegressions
    rw [hc]; simp only []
    rw [hw]; simp only []
    rw [hl]; simp only []
    rw [hH]
    exact ⟨_, rfl, hs2, rfl⟩
  · obtain ⟨l, hl, hs⟩ := keyE (cmValues m n) (by
      intro y hy
      obtain ⟨e, -, rfl⟩ := List.mem_map.mp hy
      rw [List.length_map, hm.length])
    unfold Cumulants.make
    rw [hc]; simp only []
    rw [hw]; simp only []
    rw [hl]
    refine ⟨_, rfl, ?_⟩
    · have := congrArg (List.map fun (s : Fin R → Fl) r => s r * Fl.fin log2e) hs
      rw [List.map_map, List.map_map] at this
      refine Eq.trans this ?_
      simp only [Function.comp_def, Fl.fin_mul, zero_mul]
      rw [List.map_const']
      simp [cmValues]
  · have huv := mapE_ok _ _ (QArg.ndarray q).expos (fun e _ => hm.msUV e)
    obtain ⟨u, hu, hus⟩ := keyE (((QArg.ndarray q).expos.map fun e =>
      m.values.map fun p => ((fun r => msU (countNotNaN (col p.2 r)) (col p.2 r) e), (fun r => msV (col p.2 r) e))).map
        fun l => l.map Prod.fst) (by
      intro y hy
      simp only [List.map_map, List.mem_map, Function.comp] at hy
      obtain ⟨e, -, rfl⟩ := hy
      rw [List.length_map, hm.length])
    obtain ⟨v, hv, hvs⟩ := keyE (((QArg.ndarray q).expos.map fun e =>
      m.values.map fun p => ((fun r => msU (countNotNaN (col p.2 r)) (col p.2 r) e), (fun r => msV (col p.2 r) e))).map
        fun l => l.map Prod.snd) (by
      intro y hy
      simp only [List.map_map, List.mem_map, Function.comp] at hy
      obtain ⟨e, -, rfl⟩ := hy
      rw [List.length_map, hm.length])
    unfold Spectrum.make
    rw [hc]; simp only []
    rw [if_neg hqe, huv]; simp only []
    rw [hw]; simp only []
    rw [hu]; simp only []
    rw [hv]
    refine ⟨_, rfl, ?_⟩
    · refine ⟨?_, ?_⟩
      · rw [hvs]; simp [QArg.expos, Function.comp_def]
      · have := congrArg (List.map fun (s : Fin R → Fl) r => Fl.fin 1 + s r) hus
        rw [List.map_map, List.map_map] at this
        refine Eq.trans this ?_
        simp only [Function.comp_def, Fl.fin_add, add_zero]
        simp [QArg.expos, Function.comp_def]

/-- **C53**, a single unavailable scale: for `j1 = j2` outside the available scales (above `J`, 0, or at most `-J`) the
unweighted estimators return 0 for all exponents, log-cumulants and `h(q)` and 1 for `D(q)`, whatever the data. -/
theorem C53_unweighted_empty {m : MRQ R} {J : ℕ} (hm : Regular m J) (hJ : 0 < J) {j : ℤ} (hk : (J : ℤ) < j ∨ j = 0 ∨ j ≤ -J)
    (q : List ℝ) (hq : (2:ℝ) ∈ q) (n : ℕ) :
    (∃ s, StructFn.make m (.ndarray q) j j false = .ok s ∧ s.zeta = q.map (fun _ _ => Fl.fin 0) ∧
      s.H = fun _ => Fl.fin (-m.gamint)) ∧
    (∃ c, Cumulants.make m n j j false = .ok c ∧ c.log_cumulants = List.replicate n (fun _ => Fl.fin 0)) ∧
    (∃ d, Spectrum.make m j j false (.ndarray q) = .ok d ∧ d.hq = q.map (fun _ _ => Fl.fin 0) ∧
      d.Dq = q.map (fun _ _ => Fl.fin 1)) := by
  have har : arange j (j + 1) = [j] := by simp [arange]
  have key : ∀ y : Arr R, y.length = J → ∃ g : LinReg R, (g.slope = fun _ => Fl.fin 0) ∧
      linearRegression (tileScales R j j) (pySlice y (j - 1) j) (.mat ((arange j (j + 1)).map fun _ _ => Fl.fin 1)) = .ok g := by
    intro y hy
    have hs := pySlice_selected y hy j j
    have h0 : selectedScales J j j = 0 := by
      unfold selectedScales
      by_cases h1 : j - 1 < 0 <;> by_cases h2 : j < 0 <;> simp only [h1, h2, if_true, if_false] <;> omega
    have he : pySlice y (j - 1) j = [] := List.length_eq_zero_iff.mp (by omega)
    rw [reg_ones, he, if_pos (Or.inr (Or.inl (by omega)))]
    refine ⟨_, ?_, rfl⟩
    funext r
    have hl1 : ∃ w, lrWSlope (col (tileScales R j j) r) (col ((arange j (j + 1)).map fun _ _ => Fl.fin 1) r) = [w] := by
      simp only [tileScales, har, col, List.map_cons, List.map_nil]
      unfold lrWSlope
      simp
    obtain ⟨w, hw⟩ := hl1
    simp only [hw]
    simp [col, dotB]
  exact zero_core hm hJ key q hq n

/-- **C53**, empty ranges: `0 ≤ j2 < j1` (for instance when the signal is too short for `j1`).  With weights the estimators raise ValueError (`estimate_hmin`
in the case of one realisation and `j2 = j1 - 1` is left out, see the simplification there).  Without
weights they silently return 0 for all exponents, log-cumulants and `h(q)` and 1 for `D(q)`, and `estimate_hmin` returns 0 if `j2 = j1 - 1` and raises
ValueError otherwise. -/
theorem C53_empty_range {m : MRQ R} {J : ℕ} (hm : Regular m J) (hJ : 0 < J) {j1 j2 : ℤ} (h2 : 0 ≤ j2) (h12 : j2 < j1)
    (q : List ℝ) (hq : (2:ℝ) ∈ q) (n : ℕ) :
    (StructFn.make m (.ndarray q) j1 j2 true = .error .valueError ∧ (0 < n → Cumulants.make m n j1 j2 true = .error .valueError) ∧
      Spectrum.make m j1 j2 true (.ndarray q) = .error .valueError ∧
      (R ≠ 1 ∨ j2 < j1 - 1 → ∀ warn, estimateHmin m j1 j2 true warn = .error .valueError)) ∧
    (∃ s, StructFn.make m (.ndarray q) j1 j2 false = .ok s ∧ s.zeta = q.map (fun _ _ => Fl.fin 0) ∧
      s.H = fun _ => Fl.fin (-m.gamint)) ∧
    (∃ c, Cumulants.make m n j1 j2 false = .ok c ∧ c.log_cumulants = List.replicate n (fun _ => Fl.fin 0)) ∧
    (∃ d, Spectrum.make m j1 j2 false (.ndarray q) = .ok d ∧ d.hq = q.map (fun _ _ => Fl.fin 0) ∧
      d.Dq = q.map (fun _ _ => Fl.fin 1)) ∧
    (j2 = j1 - 1 → ∀ warn, ∃ h, estimateHmin m j1 j2 false warn = .ok h ∧ h.hmin = fun _ => Fl.fin 0) ∧
    (j2 < j1 - 1 → ∀ warn, estimateHmin m j1 j2 false warn = .error .valueError) := by
  have hc : m.checkNrep = .ok () := hm.checkNrep (j1 := 1) (j2 := 1) le_rfl le_rfl (by omega)
  have hqe : (QArg.ndarray q).expos ≠ [] := by
    intro hc'
    simp only [QArg.expos, List.map_eq_nil_iff] at hc'
    rw [hc'] at hq; cases hq
  have har : arange j1 (j2 + 1) = [] := by
    rw [← List.length_eq_zero_iff, arange_length]; omega
  have hwt : regWeights m.nj j1 j2 true = .ok (Weights.flat0 : Weights R) := by
    simp [regWeights, getNjInterv, getNjRows, har, mapE]
  have hfl : ∀ y : Arr R, linearRegression (tileScales R j1 j2) y Weights.flat0 = .error .valueError := by
    intro y
    unfold linearRegression
    simp [tileScales, har]
  have hE : ∀ L : List (Arr R), L ≠ [] →
      mapE (fun y => linearRegression (tileScales R j1 j2) (pySlice y (j1 - 1) j2) Weights.flat0) L = .error .valueError := by
    intro L hL
    cases L with
    | nil => exact absurd rfl hL
    | cons a L => rw [mapE, hfl]
  have hget : ∃ a, getKey m.values 1 = .ok a := by
    have : (1 : ℤ) ∈ m.values.map Prod.fst := by
      rw [hm.1]
      exact List.mem_map.2 ⟨0, List.mem_range.2 hJ, by simp⟩
    obtain ⟨p, hp, e⟩ := List.mem_map.1 this
    exact ⟨p.2, by rw [← e]; exact hm.getValue hp⟩
  obtain ⟨a1, hget⟩ := hget
  have hone : ∀ y : Arr R, y = [] → ∃ g : LinReg R, (g.slope = fun _ => Fl.fin 0) ∧
      linearRegression (tileScales R j1 j2) y (.mat ((arange j1 (j2 + 1)).map fun _ _ => Fl.fin 1)) = .ok g := by
    rintro y rfl
    rw [reg_ones, if_pos (Or.inl (by simp; omega))]
    refine ⟨_, ?_, rfl⟩
    funext r
    simp [har, tileScales, col, lrWSlope, dotB]
  have key : ∀ y : Arr R, y.length = J → ∃ g : LinReg R, (g.slope = fun _ => Fl.fin 0) ∧
      linearRegression (tileScales R j1 j2) (pySlice y (j1 - 1) j2) (.mat ((arange j1 (j2 + 1)).map fun _ _ => Fl.fin 1)) = .ok g := by
    intro y hy
    refine hone _ (List.length_eq_zero_iff.1 ?_)
    have hs := pySlice_selected y hy j1 j2
    have h0 : selectedScales J j1 j2 = 0 := by
      unfold selectedScales
      by_cases h1 : j1 - 1 < 0 <;> by_cases h2 : j2 < 0 <;> simp only [h1, h2, if_true, if_false] <;> omega
    omega
  obtain ⟨z1, z2, z3⟩ := zero_core hm hJ key q hq n
  refine ⟨⟨?_, ?_, ?_, ?_⟩, z1, z2, z3, ?_, ?_⟩
  · unfold StructFn.make sfRegressions
    rw [hc]; simp only []
    rw [hwt]; simp only []
    rw [hE _ (by simpa [sfLogValues] using hqe)]
  · intro hn
    unfold Cumulants.make
    rw [hc]; simp only []
    rw [hwt]; simp only []
    rw [hE _ (by simp [cmValues]; omega)]
  · have huv := mapE_ok _ _ (QArg.ndarray q).expos (fun e _ => hm.msUV e)
    unfold Spectrum.make
    rw [hc]; simp only []
    rw [if_neg hqe, huv]; simp only []
    rw [hwt]; simp only []
    rw [hE _ (by simpa using hqe)]
  · intro _ warn
    unfold estimateHmin
    rw [hget]; simp only []
    split_ifs
    · rfl
    · rw [har]
      simp only [mapE]
      rw [hwt]; simp only []
      rw [hfl]
  · intro he warn
    unfold estimateHmin
    rw [hget]; simp only []
    rw [if_neg (by omega), har]
    simp only [mapE]
    obtain ⟨g, hg, hr⟩ := hone (mapArr Fl.log2 []) rfl
    rw [show regWeights m.nj j1 j2 false = .ok (.mat ((arange j1 (j2 + 1)).map fun _ _ => Fl.fin 1)) from rfl]
    simp only []
    rw [hr]
    exact ⟨_, rfl, hg⟩
  · intro he warn
    unfold estimateHmin
    rw [hget]; simp only []
    rw [if_pos (by omega)]


/-- The demo quantity has `J = 2` scales: ranges meeting the hypotheses of each of the cases. -/
example : StructFn.make demo (.ndarray [2, 1]) (-3) (-2) false = .error .valueError ∧
    (∃ s, StructFn.make demo (.ndarray [2, 1]) (-2) (-1) false = .ok s ∧ s.zeta = [2, 1].map (fun (_ : ℝ) _ => Fl.fin 0)) ∧
    (∃ s, StructFn.make demo (.ndarray [2, 1]) 3 3 false = .ok s ∧ s.zeta = [2, 1].map (fun (_ : ℝ) _ => Fl.fin 0)) ∧
    StructFn.make demo (.ndarray [2, 1]) 2 1 true = .error .valueError := by
  refine ⟨?_, ?_, ?_, (C53_empty_range demo_regular (by norm_num) (by norm_num) (by norm_num) [2, 1] (by simp) 1).1.1⟩
  · exact (C53_unweighted_error demo_regular (by norm_num) (by norm_num) (by norm_num [selectedScales])
      (by norm_num [selectedScales]) [2, 1] (by simp) 1 one_pos).1
  · obtain ⟨s, hs, hz, -⟩ := C53_unweighted_one_scale demo_regular (by norm_num) (j1 := -2) (j2 := -1) (by norm_num)
      (by norm_num [selectedScales]) [2, 1] (by simp) demo_nonzero
    exact ⟨s, hs, hz⟩
  · obtain ⟨s, hs, hz, -⟩ := (C53_unweighted_empty demo_regular (by norm_num) (j := 3) (by norm_num) [2, 1] (by simp) 1).1
    exact ⟨s, hs, hz⟩

end

end MFA
