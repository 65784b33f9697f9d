import Verif.Props.SimulSkew

/-!
# C73: argument validation of the simulators; C74: supplied noise; satisfiability of the hypotheses of C70 - C76
-/

namespace MFA

open Classical Finset Matrix MeasureTheory

noncomputable section

variable {R : ℕ}

/-! ### C73 -/

theorem fgn_cme_ok {N : ℕ} {H sigma : ℝ} {dt : Option ℝ} (z0 : Option (CArr R)) (h0 : 0 ≤ H) (h1 : H ≤ 1) (hN : 2 ≤ N)
    (hdt : ∀ d, dt = some d → 0 ≤ d) (g : Rng) :
    ∃ s, fgn R N H sigma dt "cme" z0 g = .ok s ∧ s.x.length = N ∧ s.warned = false := by
  have hlen : ((List.range N).map (fgnCov H sigma (effStep dt N))).length = N := by simp
  have h := gaussianCme_eq (R := R) ((List.range N).map (fgnCov H sigma (effStep dt N))) (by omega) g
  rw [hlen] at h
  refine ⟨_, by rw [fgn_cme_eq z0 h0 h1 (by omega) hdt g, h], by simp, ?_⟩
  exact fgn_no_warning h0 h1 (fgnDt_eq (by omega) hdt).2 hN

/-- **C73** for `fgn`: with the default method, at least two samples and an admissible step, it returns exactly when
`0 <= H <= 1`; otherwise (whatever the method and the other arguments) it raises ValueError. -/
theorem C73_fgn {N : ℕ} {H sigma : ℝ} {dt : Option ℝ} (z0 : Option (CArr R)) (hN : 2 ≤ N) (hdt : ∀ d, dt = some d → 0 ≤ d) (g : Rng) :
    ((∃ s, fgn R N H sigma dt "cme" z0 g = .ok s) ↔ 0 ≤ H ∧ H ≤ 1) ∧
    (¬ (0 ≤ H ∧ H ≤ 1) → ∀ (N' : ℕ) (dt' : Option ℝ) (method : String), fgn R N' H sigma dt' method z0 g = .error .valueError) := by
  have herr : ¬ (0 ≤ H ∧ H ≤ 1) → ∀ (N' : ℕ) (dt' : Option ℝ) (method : String),
      fgn R N' H sigma dt' method z0 g = .error .valueError := by
    intro h N' dt' method; unfold fgn; rw [if_pos h]
  refine ⟨⟨?_, ?_⟩, herr⟩
  · rintro ⟨s, hs⟩
    by_contra hc
    rw [herr hc N dt "cme"] at hs; cases hs
  · rintro ⟨h0, h1⟩
    obtain ⟨s, hs, -⟩ := fgn_cme_ok (sigma := sigma) z0 h0 h1 hN hdt g
    exact ⟨s, hs⟩

/-- **C73** for `fbm`: it returns or raises exactly as `fgn` does. -/
theorem C73_fbm {N : ℕ} {H sigma : ℝ} {dt : Option ℝ} (method : String) (z0 : Option (CArr R)) (g : Rng) :
    ((∃ s, fbm R N H sigma dt method z0 g = .ok s) ↔ ∃ s, fgn R N H sigma dt method z0 g = .ok s) ∧
    (∀ err, fbm R N H sigma dt method z0 g = .error err ↔ fgn R N H sigma dt method z0 g = .error err) := by
  unfold fbm
  rcases fgn R N H sigma dt method z0 g with e | s <;> simp

/-- **C73** for `mrw`: with the default method, at least two samples and `L > 0`, it returns exactly when `0 <= H <= 1` and
`L <= N`; otherwise it raises ValueError, whatever the method. -/
theorem C73_mrw {N : ℕ} {H lam L sigma : ℝ} (hN : 2 ≤ N) (hL : 0 < L) (g : Rng) :
    ((∃ s, mrw R N H lam L sigma "cme" (none, none) g = .ok s) ↔ (0 ≤ H ∧ H ≤ 1) ∧ L ≤ N) ∧
    (¬ ((0 ≤ H ∧ H ≤ 1) ∧ L ≤ N) → ∀ (method : String) (z0 : Option (CArr R) × Option (CArr R)),
      mrw R N H lam L sigma method z0 g = .error .valueError) := by
  have herr : ¬ ((0 ≤ H ∧ H ≤ 1) ∧ L ≤ N) → ∀ (method : String) (z0 : Option (CArr R) × Option (CArr R)),
      mrw R N H lam L sigma method z0 g = .error .valueError := by
    intro h method z0
    unfold mrw
    by_cases hH : 0 ≤ H ∧ H ≤ 1
    · rw [if_neg (not_not.mpr hH), if_pos (not_le.mp fun hc => h ⟨hH, hc⟩)]
    · rw [if_pos hH]
  refine ⟨⟨?_, ?_⟩, herr⟩
  · rintro ⟨s, hs⟩
    by_contra hc
    rw [herr hc] at hs; cases hs
  · rintro ⟨⟨h0, h1⟩, hLN⟩
    obtain ⟨s, _, _, _, hs, -⟩ := C75_mrw (R := R) (lam := lam) (sigma := sigma) h0 h1 hL hLN hN g
    exact ⟨s, hs⟩

/-- **C73**, unknown methods: ValueError from `fgn` and `fbm`, but UnboundLocalError from `mrw`. -/
theorem C73_unknown_method {N : ℕ} {H lam L sigma : ℝ} {dt : Option ℝ} {method : String} (hm : method ≠ "cme") (hm' : method ≠ "chol")
    (h0 : 0 ≤ H) (h1 : H ≤ 1) (hN : N ≠ 0) (hdt : ∀ d, dt = some d → 0 ≤ d) (hL : 0 < L) (hLN : L ≤ N)
    (z0 : Option (CArr R)) (zz : Option (CArr R) × Option (CArr R)) (g : Rng) :
    fgn R N H sigma dt method z0 g = .error .valueError ∧
    fbm R N H sigma dt method z0 g = .error .valueError ∧
    mrw R N H lam L sigma method zz g = .error .unboundLocalError := by
  have hf : fgn R N H sigma dt method z0 g = .error .valueError := by
    unfold fgn
    rw [if_neg (by simp [h0, h1]), (fgnDt_eq hN hdt).1]
    simp [hm, hm']
  refine ⟨hf, ((C73_fbm method z0 g).2 _).mpr hf, ?_⟩
  have hw : gaussianW R N L lam 1 method zz.2 g = .error .unboundLocalError := by
    unfold gaussianW
    rw [if_neg (by simp [hL]), if_neg]
    · simp [hm, hm']
    · rintro ⟨h, -⟩
      have := (lt_pyInt_iff (by positivity) N).mp h
      rw [div_one] at this
      linarith
  unfold mrw
  rw [if_neg (by simp [h0, h1]), if_neg (not_lt.mpr hLN), hw]

/-- **C73** for `skewed_mrw`: it never returns; for `L > 0`, `dt > 0` the exception is ValueError (the noise has an odd number of
rows, the kernel an even one). -/
theorem C73_skewed_mrw (N : ℕ) (H lam L K0 alpha sigma dt beta : ℝ) (g : Rng) :
    (∃ err, skewedMrw R N H lam L K0 alpha sigma dt beta g = .error err) ∧
    (0 < L → 0 < dt → skewedMrw R N H lam L K0 alpha sigma dt beta g = .error .valueError) := by
  have hfl : ∀ (g' : Rng) (e : Sim R), fgn R (2 * N + 1) H sigma (some dt) "cme" none g' = .ok e → e.x.length = 2 * N + 1 := by
    intro g' e he
    unfold fgn at he
    split at he
    · cases he
    · split at he
      · cases he
      · simp only [if_true] at he
        rename_i d _
        have h1 : gaussianCme (R := R) ((List.range (2 * N + 1)).map (fgnCov H sigma d))
            ((List.range (2 * N + 1)).map (fgnCov H sigma d)).length none g' = .ok e := by
          rw [List.length_map, List.length_range]; exact he
        simpa using (gaussianCme_length h1).1
  have hsk : ∀ (g' : Rng) (e : Sim R), fgn R (2 * N + 1) H sigma (some dt) "cme" none g' = .ok e →
      skewnessConvolution e.x K0 alpha beta dt = .error .valueError := fun g' e he =>
    C76_odd_rows e.x (Or.inl (by rw [hfl g' e he]; omega)) K0 alpha beta dt
  constructor
  · unfold skewedMrw
    split
    · exact ⟨_, rfl⟩
    split
    · exact ⟨_, rfl⟩
    split
    · exact ⟨_, rfl⟩
    rcases gaussianW R N L lam dt "cme" none g with e | w
    · exact ⟨_, rfl⟩
    · simp only []
      rcases hf : fgn R (2 * N + 1) H sigma (some dt) "cme" none w.rng with e | e
      · exact ⟨_, rfl⟩
      · simp only []
        rw [hsk w.rng e hf]; exact ⟨_, rfl⟩
  · intro hL hdt
    unfold skewedMrw
    by_cases hH : 0 ≤ H ∧ H ≤ 1
    · rw [if_neg (not_not.mpr hH), if_neg hdt.ne']
      by_cases hLN : L / dt > N
      · rw [if_pos hLN]
      · rw [if_neg hLN]
        have hLN' : L / dt ≤ N := not_lt.mp hLN
        rw [gaussianW_cme_eq hL hdt hLN' none g]
        have hN0 : N ≠ 0 := by
          rintro rfl
          have : 0 < L / dt := by positivity
          push_cast at hLN'; linarith
        by_cases hN1 : N = 1
        · subst hN1
          have : gaussianCme (R := R) ((List.range 1).map (wCov L lam dt)) 1 none g = .error .valueError := by
            unfold gaussianCme; simp
          rw [this]
        · have hlen : ((List.range N).map (wCov L lam dt)).length = N := by simp
          have hw := gaussianCme_eq (R := R) ((List.range N).map (wCov L lam dt)) (by omega) g
          rw [hlen] at hw
          rw [hw]
          simp only []
          obtain ⟨e, he, -⟩ := fgn_cme_ok (R := R) (N := 2 * N + 1) (sigma := sigma) (dt := some dt) none hH.1 hH.2 (by omega)
            (fun d hd => by cases hd; exact hdt.le) (g.skip (2 * ((2 * N - 2) * R)))
          rw [he]
          simp only []
          rw [hsk _ e he]
    · rw [if_pos hH]

/-! ### C74 -/

/-- **C74**: with the default method `fgn` (and `fbm`, and the noise `e` of `mrw`) does not depend on the supplied noise. -/
theorem C74_cme_ignores_z0 (N : ℕ) (H lam L sigma : ℝ) (dt : Option ℝ) (z z' zw : Option (CArr R)) (g : Rng) :
    fgn R N H sigma dt "cme" z g = fgn R N H sigma dt "cme" z' g ∧
    fbm R N H sigma dt "cme" z g = fbm R N H sigma dt "cme" z' g ∧
    mrw R N H lam L sigma "cme" (z, zw) g = mrw R N H lam L sigma "cme" (z', zw) g := by
  have hf : ∀ N dt g, fgn R N H sigma dt "cme" z g = fgn R N H sigma dt "cme" z' g := by
    intro N dt g; unfold fgn; simp only [if_true]
  refine ⟨hf N dt g, by unfold fbm; rw [hf], ?_⟩
  unfold mrw
  simp only [hf]

/-- A real array as a complex one. -/
def toComplex (z : RArr R) : CArr R := z.map fun (row : Fin R → ℝ) r => (row r : ℂ)

theorem gaussianChol_some {cov : List ℝ} (hne : cov ≠ []) (hA : (toeplitz cov).PosDef) :
    ∃ U, IsUpperCholesky U (toeplitz cov) ∧ ∀ (g : Rng) (z : RArr R), z.length = cov.length →
      gaussianChol cov cov.length (some (toComplex z)) g = .ok
      { x := List.ofFn fun (i : Fin cov.length) (r : Fin R) => ∑ j : Fin cov.length, U i j * (z.getD j fun _ => 0) r
        warned := false, rng := g } := by
  obtain ⟨U, hU, hchol⟩ := spCholesky_ok hA
  refine ⟨U, hchol, fun g z hz => ?_⟩
  have hre : ((toComplex z).map fun row r => (row r).re) = z := by
    rw [toComplex, List.map_map]
    conv_rhs => rw [← List.map_id z]
    refine List.map_congr_left fun row _ => ?_
    funext r; simp
  unfold gaussianChol
  rw [if_neg, hU]
  · simp only [hre]
    rw [if_neg (by simp [hz])]
  · rintro (h | ⟨z', h, row, hrow, r, hr⟩)
    · exact hne h
    · cases h
      simp only [toComplex, List.mem_map] at hrow
      obtain ⟨row', -, rfl⟩ := hrow
      simp at hr

/-- **C74**: with `method='chol'` the supplied noise determines the result, and different noises give different results; the
random generator is not used. -/
theorem C74_chol_uses_z0 {N : ℕ} {H sigma : ℝ} {dt : Option ℝ} (h0 : 0 < H) (h1 : H < 1) (hs : sigma ≠ 0) (hN : 2 ≤ N)
    (hdt : ∀ d, dt = some d → 0 ≤ d) (z z' : RArr R) (hz : z.length = N) (hz' : z'.length = N) (g g' : Rng) :
    ∃ s s', fgn R N H sigma dt "chol" (some (toComplex z)) g = .ok s ∧
      fgn R N H sigma dt "chol" (some (toComplex z')) g' = .ok s' ∧ s.rng = g ∧ (s.x = s'.x ↔ z = z') := by
  have hN0 : N ≠ 0 := by omega
  have hpos := (fgnDt_eq (N := N) hN0 hdt).2
  have hA := fgn_posDef h0 h1 hs hpos hN
  have hlen : ((List.range N).map (fgnCov H sigma (effStep dt N))).length = N := by simp
  obtain ⟨U, hU, hok⟩ := gaussianChol_some (R := R) (cov := (List.range N).map (fgnCov H sigma (effStep dt N)))
    (by intro hc; rw [hc] at hlen; simp at hlen; omega) hA
  have e1 := hok g z (by rw [hlen, hz])
  have e2 := hok g' z' (by rw [hlen, hz'])
  have hf : ∀ (zc : Option (CArr R)) (g : Rng), fgn R N H sigma dt "chol" zc g
      = gaussianChol ((List.range N).map (fgnCov H sigma (effStep dt N)))
        ((List.range N).map (fgnCov H sigma (effStep dt N))).length zc g := by
    intro zc g; rw [fgn_chol_eq zc h0.le h1.le hN0 hdt g, hlen]
  refine ⟨_, _, by rw [hf, e1], by rw [hf, e2], rfl, ?_⟩
  constructor
  · intro h
    have hdet : U.det = ∏ i, U i i := Matrix.det_of_isUpperTriangular (fun i j hij => hU.upper i j hij)
    have hu : IsUnit U := by
      rw [Matrix.isUnit_iff_isUnit_det, hdet, isUnit_iff_ne_zero]
      exact prod_ne_zero_iff.mpr fun i _ => (hU.diag i).ne'
    have hinj := Matrix.mulVec_injective_of_isUnit hu
    have h2 := List.ofFn_injective h
    have h3 : ∀ r, (fun j : Fin ((List.range N).map (fgnCov H sigma (effStep dt N))).length => (z.getD (j : ℕ) fun _ => 0) r)
        = fun j : Fin ((List.range N).map (fgnCov H sigma (effStep dt N))).length => (z'.getD (j : ℕ) fun _ => 0) r := by
      intro r
      apply hinj
      funext i
      have := congrFun (congrFun h2 i) r
      simpa [Matrix.mulVec, dotProduct] using this
    apply List.ext_getElem (by rw [hz, hz'])
    intro j hj hj'
    funext r
    have := congrFun (h3 r) ⟨j, by rw [hlen, ← hz]; exact hj⟩
    simp only [List.getD_eq_getElem?_getD, List.getElem?_eq_getElem hj, List.getElem?_eq_getElem hj', Option.getD_some] at this
    exact this
  · rintro rfl; rfl

end

end MFA
