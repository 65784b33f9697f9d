import Verif.Props.PLeaders
import Verif.Props.Mfa
import Verif.Spec.Select

/-! Property C13: realisations are analysed independently. -/

namespace MFA

open Classical

variable {R R' : ℕ} (σ : Fin R' → Fin R)

/-! ### Naturality of the numpy constructs -/

theorem col_sel (a : Arr R) (r : Fin R') : col (Arr.sel σ a) r = col a (σ r) := by
  simp only [col, Arr.sel, List.map_map]; rfl

theorem sel_length (a : Arr R) : (Arr.sel σ a).length = a.length := by simp [Arr.sel]

theorem sel_mapArr (f : Fl → Fl) (a : Arr R) : mapArr f (Arr.sel σ a) = Arr.sel σ (mapArr f a) := by
  simp only [mapArr, Arr.sel, List.map_map]; rfl

theorem sel_red (f : List Fl → Fl) (a : Arr R) : red f (Arr.sel σ a) = Row.sel σ (red f a) := by
  funext r; simp only [red, Row.sel, col_sel]

theorem sel_getElem? (a : Arr R) (k : ℕ) : (Arr.sel σ a)[k]? = (a[k]?).map (Row.sel σ) := by
  simp [Arr.sel]

theorem sel_ent (a : Arr R) (k : ℕ) (r : Fin R') : ent (Arr.sel σ a) k r = ent a k (σ r) := by
  unfold ent
  rw [sel_getElem?]
  cases a[k]? <;> rfl

theorem sel_padGet (a : Arr R) (t : ℤ) (r : Fin R') : padGet (Arr.sel σ a) t r = padGet a t (σ r) := by
  unfold padGet
  split
  · rw [sel_getElem?]; cases a[t.toNat]? <;> rfl
  · rfl

theorem sel_convSame (a : Arr R) (f : List ℝ) : convSame (Arr.sel σ a) f = Arr.sel σ (convSame a f) := by
  unfold convSame
  simp only [sel_length, sel_padGet]
  simp only [Arr.sel, List.map_map]
  rfl

theorem sel_setNaN (a : Arr R) (b c : ℕ) : setNaN (Arr.sel σ a) b c = Arr.sel σ (setNaN a b c) := by
  unfold setNaN
  apply List.ext_getElem?
  intro i
  rw [List.getElem?_mapIdx, sel_getElem?, sel_getElem?, List.getElem?_mapIdx]
  cases a[i]? with
  | none => rfl
  | some row =>
    simp only [Option.map_some, Option.some.injEq]
    split <;> rfl

theorem sel_maskBorders (F : ℕ) (a : Arr R) : maskBorders F (Arr.sel σ a) = Arr.sel σ (maskBorders F a) := by
  unfold maskBorders
  simp only [sel_length, sel_setNaN]

theorem sel_subsample (a : Arr R) : subsample (Arr.sel σ a) = Arr.sel σ (subsample a) := by
  unfold subsample
  rw [sel_length]
  simp only [sel_getElem?]
  simp only [Arr.sel, List.map_filterMap]

theorem sel_filtering (a : Arr R) (h l : List ℝ) :
    filtering (Arr.sel σ a) h l = (Arr.sel σ (filtering a h l).1, Arr.sel σ (filtering a h l).2) := by
  simp only [filtering, sel_convSame, sel_maskBorders, sel_subsample]

theorem sel_approxSeq (P : LoopParams) (sig : Arr R) (j : ℕ) :
    approxSeq P (Arr.sel σ sig) j = Arr.sel σ (approxSeq P sig j) := by
  induction j with
  | zero => rfl
  | succ j ih => rw [approxSeq, approxSeq, ih, sel_filtering]

theorem sel_coefSeq (P : LoopParams) (sig : Arr R) (s : ℕ) :
    coefSeq P (Arr.sel σ sig) s = Arr.sel σ (coefSeq P sig s) := by
  rw [coefSeq, coefSeq, detailSeq, detailSeq, sel_approxSeq, sel_filtering, scaled, scaled, sel_mapArr]

theorem sel_svF (P : LoopParams) (p : PExp) (sig : Arr R) (s : ℕ) : ∀ k (r : Fin R'),
    svF P p (Arr.sel σ sig) s k r = svF P p sig s k (σ r) := by
  have hin : ∀ s k (r : Fin R'), ent (inpSeq P p (Arr.sel σ sig) s) k r = ent (inpSeq P p sig s) k (σ r) := by
    intro s k r
    rw [inpSeq, inpSeq, sel_coefSeq, leaderInput_eq, leaderInput_eq, sel_mapArr, sel_ent]
  induction s with
  | zero => intro k r; exact hin 1 k r
  | succ s ih => intro k r; rw [svF, svF, ih, ih, hin]

theorem sel_leadSeq (P : LoopParams) (p : PExp) (sig : Arr R) (s : ℕ) :
    leadSeq P p (Arr.sel σ sig) s = Arr.sel σ (leadSeq P p sig s) := by
  unfold leadSeq
  simp only [sel_length, sel_svF]
  simp only [Arr.sel, List.map_map]
  rfl

theorem sel_scalesUpTo (fm : Formalism) (g : ℝ) (f : ℕ → Arr R) (K : ℕ) :
    scalesUpTo fm g (fun s => Arr.sel σ (f s)) K = (scalesUpTo fm g f K).sel σ := by
  simp only [scalesUpTo, MRQ.sel, njSel, List.map_map, col_sel]
  rfl

theorem sel_sampled (N : ℕ) (x : Fin R → ℤ → ℝ) : sampled N (fun r => x (σ r)) = Arr.sel σ (sampled N x) := by
  simp only [sampled, Arr.sel, List.map_map]; rfl

/-! ### Naturality of the estimators -/

theorem mapE_natural {α β α' β' : Type} (f : α → Except PyErr β) (f' : α' → Except PyErr β') (s : α → α') (t : β → β')
    (h : ∀ a, f' (s a) = (f a).map t) (l : List α) : mapE f' (l.map s) = (mapE f l).map (List.map t) := by
  induction l with
  | nil => rfl
  | cons a l ih =>
    rw [List.map_cons, mapE, mapE, h, ih]
    cases f a with
    | error e => rfl
    | ok b => cases mapE f l <;> rfl

theorem mapE_natural' {α β β' : Type} (f : α → Except PyErr β) (f' : α → Except PyErr β') (t : β → β')
    (h : ∀ a, f' a = (f a).map t) (l : List α) : mapE f' l = (mapE f l).map (List.map t) := by
  have := mapE_natural f f' id t h l
  rwa [List.map_id] at this

theorem get?_mapVal {α β : Type} (d : Dict α) (f : α → β) (j : ℤ) :
    Dict.get? (d.map fun p => (p.1, f p.2)) j = (Dict.get? d j).map f := by
  induction d with
  | nil => rfl
  | cons p d ih =>
    obtain ⟨k, v⟩ := p
    simp only [List.map_cons, Dict.get?]
    split
    · rfl
    · exact ih

theorem getKey_mapVal {α β : Type} (d : Dict α) (f : α → β) (j : ℤ) :
    getKey (d.map fun p => (p.1, f p.2)) j = (getKey d j).map f := by
  unfold getKey
  rw [get?_mapVal]
  cases Dict.get? d j <;> rfl

/-- Columns of regression weights. -/
def Weights.sel (σ : Fin R' → Fin R) : Weights R → Weights R'
  | .flat0 => .flat0
  | .mat a => .mat (Arr.sel σ a)

/-- Columns of regression results. -/
def LinReg.sel (σ : Fin R' → Fin R) (g : LinReg R) : LinReg R' :=
  { slope := Row.sel σ g.slope, intercept := Row.sel σ g.intercept, var := Row.sel σ g.var }

theorem sel_linearRegression (x y : Arr R) (w : Weights R) :
    linearRegression (Arr.sel σ x) (Arr.sel σ y) (w.sel σ) = (linearRegression x y w).map (LinReg.sel σ) := by
  cases w with
  | flat0 =>
    simp only [linearRegression, Weights.sel, sel_length]
    split <;> rfl
  | mat a =>
    simp only [linearRegression, Weights.sel, sel_length, col_sel]
    split
    · rfl
    · split <;> rfl

theorem sel_tile (j1 j2 : ℤ) : tileScales R' j1 j2 = Arr.sel σ (tileScales R j1 j2) := by
  simp only [tileScales, Arr.sel, List.map_map]; rfl

theorem sel_pySlice (a : Arr R) (b c : ℤ) : pySlice (Arr.sel σ a) b c = Arr.sel σ (pySlice a b c) := by
  unfold Arr.sel; rw [pySlice_map]

theorem sel_regWeights (nj : Dict (Fin R → ℕ)) (j1 j2 : ℤ) (weighted : Bool) :
    regWeights (njSel σ nj) j1 j2 weighted = (regWeights nj j1 j2 weighted).map (Weights.sel σ) := by
  unfold regWeights
  split
  · unfold getNjInterv getNjRows
    rw [mapE_natural' (fun j => getKey nj j) (fun j => getKey (njSel σ nj) j) (fun n r => n (σ r))
      (fun a => getKey_mapVal nj (fun n r => n (σ r)) a)]
    cases mapE (fun j => getKey nj j) (arange j1 (j2 + 1)) with
    | error e => rfl
    | ok l =>
      cases l with
      | nil => rfl
      | cons a l =>
        simp only [Except.map, List.map_cons, Weights.sel, Arr.sel, List.map_map]
        rfl
  · simp only [Except.map, Weights.sel, Arr.sel, List.map_map]
    rfl

theorem sel_checkNrep (m : MRQ R) : (m.sel σ).checkNrep = m.checkNrep := by
  unfold MRQ.checkNrep MRQ.sel
  cases m.values <;> rfl

theorem sel_keys (m : MRQ R) : (m.sel σ).values.keys = m.values.keys := by
  simp only [MRQ.sel, Dict.keys, List.map_map]; rfl

theorem sel_sfLogValues (m : MRQ R) (q : List Expo) :
    sfLogValues (m.sel σ) q = (sfLogValues m q).map (Arr.sel σ) := by
  simp only [sfLogValues, MRQ.sel, List.map_map]
  apply List.map_congr_left
  intro e _
  simp only [Function.comp, Arr.sel, List.map_map]
  apply List.map_congr_left
  intro p _
  funext r
  simp only [Function.comp, sfMean, Row.sel]
  rw [show List.map (Row.sel σ) p.2 = Arr.sel σ p.2 from rfl, sel_mapArr, sel_mapArr, sel_red]
  rfl

theorem maskEq_mapVal {α β : Type} (q : List ℝ) (v : ℝ) (a : List α) (f : α → β) :
    maskEq q v (a.map f) = (maskEq q v a).map f := by
  unfold maskEq
  rw [List.zip_map_right, List.filter_map, List.map_map, List.map_map]
  rfl

theorem exMap_ok {α β : Type} (f : α → β) (a : α) : (Except.ok a : Except PyErr α).map f = .ok (f a) := rfl

theorem exMap_err {α β : Type} (f : α → β) (e : PyErr) : (Except.error e : Except PyErr α).map f = .error e := rfl

theorem sel_sfGetH (q : QArg) (zeta : Arr R) (g : ℝ) :
    sfGetH q (Arr.sel σ zeta) g = (sfGetH q zeta g).map (Row.sel σ) := by
  cases q with
  | pylist l => rfl
  | ndarray l =>
    simp only [sfGetH, Arr.sel, maskEq_mapVal]
    cases maskEq l 2 zeta <;> rfl

/-- C13: structure functions of some columns are these columns of the structure functions (and the same exception is
raised). -/
theorem C13_structure (m : MRQ R) (q : QArg) (j1 j2 : ℤ) (weighted : Bool) :
    StructFn.make (m.sel σ) q j1 j2 weighted = (StructFn.make m q j1 j2 weighted).map (StructFn.sel σ) := by
  unfold StructFn.make
  rw [sel_checkNrep]
  cases m.checkNrep with
  | error e => rfl
  | ok u =>
    simp only
    rw [sel_sfLogValues]
    have hr : sfRegressions (m.sel σ) ((sfLogValues m q.expos).map (Arr.sel σ)) j1 j2 weighted
        = (sfRegressions m (sfLogValues m q.expos) j1 j2 weighted).map (List.map (LinReg.sel σ)) := by
      unfold sfRegressions
      rw [show (m.sel σ).nj = njSel σ m.nj from rfl, sel_regWeights]
      cases regWeights m.nj j1 j2 weighted with
      | error e => rfl
      | ok w =>
        simp only [Except.map]
        apply mapE_natural
        intro lv
        rw [sel_tile σ, sel_pySlice, sel_linearRegression]
    rw [hr]
    cases sfRegressions m (sfLogValues m q.expos) j1 j2 weighted with
    | error e => rfl
    | ok regs =>
      have hz : (regs.map (LinReg.sel σ)).map LinReg.slope = Arr.sel σ (regs.map LinReg.slope) := by
        simp only [Arr.sel, List.map_map]; rfl
      have hi : (regs.map (LinReg.sel σ)).map LinReg.intercept = Arr.sel σ (regs.map LinReg.intercept) := by
        simp only [Arr.sel, List.map_map]; rfl
      simp only [Except.map]
      rw [hz, hi, show (m.sel σ).gamint = m.gamint from rfl, sel_sfGetH]
      cases sfGetH q (regs.map LinReg.slope) m.gamint with
      | error e => rfl
      | ok H =>
        simp only [Except.map, StructFn.sel, sel_keys]
        rfl

/-- C13: the same for log-cumulants. -/
theorem C13_cumulants (m : MRQ R) (n : ℕ) (j1 j2 : ℤ) (weighted : Bool) :
    Cumulants.make (m.sel σ) n j1 j2 weighted = (Cumulants.make m n j1 j2 weighted).map (Cumulants.sel σ) := by
  unfold Cumulants.make
  rw [sel_checkNrep]
  cases m.checkNrep with
  | error e => rfl
  | ok u =>
    have hv : cmValues (m.sel σ) n = (cmValues m n).map (Arr.sel σ) := by
      simp only [cmValues, MRQ.sel, List.map_map]
      apply List.map_congr_left
      intro i _
      simp only [Function.comp, Arr.sel, List.map_map]
      apply List.map_congr_left
      intro p _
      funext r
      simp only [Function.comp, logAbsCol, Row.sel]
      rw [show List.map (Row.sel σ) p.2 = Arr.sel σ p.2 from rfl, col_sel]
    simp only
    rw [hv, show (m.sel σ).nj = njSel σ m.nj from rfl, sel_regWeights]
    cases regWeights m.nj j1 j2 weighted with
    | error e => rfl
    | ok w =>
      simp only [Except.map]
      rw [mapE_natural (fun v => linearRegression (tileScales R j1 j2) (pySlice v (j1 - 1) j2) w) _ (Arr.sel σ)
        (LinReg.sel σ) (fun v => by rw [sel_tile σ, sel_pySlice, sel_linearRegression])]
      cases mapE (fun v => linearRegression (tileScales R j1 j2) (pySlice v (j1 - 1) j2) w) (cmValues m n) with
      | error e => rfl
      | ok regs =>
        simp only [Except.map, Cumulants.sel, sel_keys, Arr.sel, List.map_map]
        rfl

/-- C13: the same for the multifractal spectrum. -/
theorem C13_spectrum (m : MRQ R) (q : QArg) (j1 j2 : ℤ) (weighted : Bool) :
    Spectrum.make (m.sel σ) j1 j2 weighted q = (Spectrum.make m j1 j2 weighted q).map (Spectrum.sel σ) := by
  unfold Spectrum.make
  rw [sel_checkNrep]
  cases m.checkNrep with
  | error e => rfl
  | ok u =>
    simp only
    by_cases hq : q.expos = []
    · rw [if_pos hq, if_pos hq]; rfl
    · rw [if_neg hq, if_neg hq]
      have huv : mapE (msUV (m.sel σ)) q.expos = (mapE (msUV m) q.expos).map
          (List.map (List.map fun uv : Row R × Row R => (Row.sel σ uv.1, Row.sel σ uv.2))) := by
        apply mapE_natural'
        intro e
        unfold msUV
        rw [show (m.sel σ).values = m.values.map fun p => (p.1, Arr.sel σ p.2) from rfl]
        apply mapE_natural
        intro p
        simp only [col_sel]
        rw [show getKey (m.sel σ).nj p.1 = (getKey m.nj p.1).map (fun n r => n (σ r)) from
          getKey_mapVal m.nj (fun n r => n (σ r)) p.1]
        cases getKey m.nj p.1 <;> rfl
      rw [huv]
      cases mapE (msUV m) q.expos with
      | error e => rfl
      | ok uv =>
        simp only [Except.map]
        rw [show (m.sel σ).nj = njSel σ m.nj from rfl, sel_regWeights]
        cases regWeights m.nj j1 j2 weighted with
        | error e => rfl
        | ok w =>
          have hU : (uv.map (List.map fun uv : Row R × Row R => (Row.sel σ uv.1, Row.sel σ uv.2))).map
              (fun l => l.map Prod.fst) = (uv.map fun l => l.map Prod.fst).map (Arr.sel σ) := by
            simp only [List.map_map]
            apply List.map_congr_left; intro l _
            simp only [Function.comp, Arr.sel, List.map_map]
            rfl
          have hV : (uv.map (List.map fun uv : Row R × Row R => (Row.sel σ uv.1, Row.sel σ uv.2))).map
              (fun l => l.map Prod.snd) = (uv.map fun l => l.map Prod.snd).map (Arr.sel σ) := by
            simp only [List.map_map]
            apply List.map_congr_left; intro l _
            simp only [Function.comp, Arr.sel, List.map_map]
            rfl
          simp only [Except.map]
          rw [hU, hV]
          have hreg : ∀ l : List (Arr R),
              mapE (fun u => linearRegression (tileScales R' j1 j2) (pySlice u (j1 - 1) j2) (w.sel σ)) (l.map (Arr.sel σ))
                = (mapE (fun u => linearRegression (tileScales R j1 j2) (pySlice u (j1 - 1) j2) w) l).map
                    (List.map (LinReg.sel σ)) := by
            intro l
            apply mapE_natural
            intro v
            rw [sel_tile σ, sel_pySlice, sel_linearRegression]
          rw [hreg, hreg]
          cases mapE (fun u => linearRegression (tileScales R j1 j2) (pySlice u (j1 - 1) j2) w)
              (uv.map fun l => l.map Prod.fst) with
          | error e => rfl
          | ok r1 =>
            simp only [Except.map]
            cases mapE (fun u => linearRegression (tileScales R j1 j2) (pySlice u (j1 - 1) j2) w)
                (uv.map fun l => l.map Prod.snd) with
            | error e => rfl
            | ok r2 =>
              simp only [Except.map, Spectrum.sel, sel_keys, Arr.sel, List.map_map]
              rfl

/-- C13: the same for hmin (the warning looks at all realisations together). -/
theorem C13_hmin (m : MRQ R) (j1 j2 : ℤ) (weighted warn : Bool) :
    (estimateHmin (m.sel σ) j1 j2 weighted warn).map (fun h => (h.hmin, h.intercept, h.y)) =
      (estimateHmin m j1 j2 weighted warn).map (fun h => (Row.sel σ h.hmin, Row.sel σ h.intercept, Arr.sel σ h.y)) := by
  unfold estimateHmin
  have hg : ∀ j, getKey (m.sel σ).values j = (getKey m.values j).map (Arr.sel σ) := fun j =>
    getKey_mapVal m.values (Arr.sel σ) j
  rw [hg]
  cases getKey m.values 1 with
  | error e => rfl
  | ok c1 =>
    simp only [exMap_ok]
    by_cases hlt : j2 - j1 + 1 < 0
    · rw [if_pos hlt, if_pos hlt]; rfl
    · rw [if_neg hlt, if_neg hlt]
      have hs : ∀ j, supCoeffs (m.sel σ) j = (supCoeffs m j).map (Row.sel σ) := by
        intro j
        unfold supCoeffs
        rw [hg]
        cases getKey m.values j with
        | error e => rfl
        | ok c =>
          cases c with
          | nil => rfl
          | cons a c =>
            simp only [Except.map]
            rw [show Arr.sel σ (a :: c) = Row.sel σ a :: Arr.sel σ c from rfl]
            simp only
            rw [show Row.sel σ a :: Arr.sel σ c = Arr.sel σ (a :: c) from rfl, sel_mapArr, sel_red]
      rw [mapE_natural' _ _ _ hs]
      cases mapE (supCoeffs m) (arange j1 (j2 + 1)) with
      | error e => rfl
      | ok sup =>
        simp only [exMap_ok]
        rw [show (m.sel σ).nj = njSel σ m.nj from rfl, sel_regWeights]
        cases regWeights m.nj j1 j2 weighted with
        | error e => rfl
        | ok w =>
          simp only [exMap_ok]
          rw [sel_tile σ, show mapArr Fl.log2 (List.map (Row.sel σ) sup) = Arr.sel σ (mapArr Fl.log2 sup) from
            sel_mapArr σ Fl.log2 sup, sel_linearRegression]
          cases linearRegression (tileScales R j1 j2) (mapArr Fl.log2 sup) w <;> rfl

theorem sel_mfVar (m : MRQ R) (j1 j2 : ℤ) (weighted : Bool) (n : ℕ) (q : List ℝ) :
    mfVar (m.sel σ) j1 j2 weighted n q = (mfVar m j1 j2 weighted n q).map (MFVar.sel σ) := by
  unfold mfVar
  rw [C13_structure]
  cases StructFn.make m (.ndarray q) j1 j2 weighted with
  | error e => rfl
  | ok s =>
    simp only [Except.map]
    rw [C13_cumulants]
    cases Cumulants.make m n j1 j2 weighted with
    | error e => rfl
    | ok c =>
      simp only [Except.map]
      rw [C13_spectrum]
      cases Spectrum.make m j1 j2 weighted (.ndarray q) with
      | error e => rfl
      | ok sp =>
        simp only [Except.map]
        have h := C13_hmin σ m j1 j2 weighted true
        cases h1 : estimateHmin m j1 j2 weighted true with
        | error e =>
          rw [h1] at h
          cases h2 : estimateHmin (m.sel σ) j1 j2 weighted true with
          | error e' => rw [h2] at h; simpa [Except.map] using h
          | ok _ => rw [h2] at h; cases h
        | ok hm =>
          rw [h1] at h
          cases h2 : estimateHmin (m.sel σ) j1 j2 weighted true with
          | error e' => rw [h2] at h; cases h
          | ok hm' =>
            rw [h2] at h
            simp only [Except.map, Except.ok.injEq, Prod.mk.injEq] at h
            simp only [Except.ok.injEq]
            rw [h.1]; rfl

/-- C13: `mf_analysis` on some columns of the quantities gives these columns of the result. -/
theorem C13_mf_analysis (c : MRQ R) (l : Option (MRQ R)) (j2 j1 : ℤ) (weighted : Bool) (n : ℕ) (q : Option QArg) :
    mfAnalysis (c.sel σ) (l.map (MRQ.sel σ)) j2 j1 weighted n q =
      (mfAnalysis c l j2 j1 weighted n q).map (MFData.sel σ) := by
  unfold mfAnalysis
  rw [sel_mfVar]
  cases mfVar c j1 j2 weighted n (normQ q) with
  | error e => rfl
  | ok d =>
    simp only [Except.map]
    cases l with
    | none => rfl
    | some l =>
      simp only [Option.map_some]
      rw [sel_mfVar]
      cases mfVar l j1 j2 weighted n (normQ q) <;> rfl

/-! ### The wavelet transform -/

theorem FirstBad.unique' {n : ℕ} {good : ℕ → Prop} {s K K' : ℕ} (h : FirstBad n good s K) (h' : FirstBad n good s K') :
    K = K' := h.unique h'

theorem sel_wa_inf (hR' : R' ≠ 0) {N : ℕ} (hN : N ≠ 0) (x : Fin R → ℤ → ℝ) {p : PExp} (hp : p = .none ∨ p = .inf)
    {wt : Wavelet} (hwt : wt.Valid) (j1 : ℤ) (j2 : Option ℝ) (g : ℝ) {nm : ℝ} (hnm : nm ≠ 0) (weighted : Bool) :
    ∃ w, waveletAnalysis (sampled N x) p wt j1 j2 g nm weighted = .ok w ∧
      waveletAnalysis (sampled N fun r => x (σ r)) p wt j1 j2 g nm weighted = .ok (w.sel σ) := by
  have hR : R ≠ 0 := by rintro rfl; exact (σ ⟨0, Nat.pos_of_ne_zero hR'⟩).elim0
  have hne : ∀ {R : ℕ} (y : Fin R → ℤ → ℝ), sampled N y ≠ [] := by
    intro R y h
    have := congrArg List.length h
    rw [sampled_length] at this; exact hN this
  obtain ⟨w, hw⟩ := C05_total (sampled N x) p hp wt j1 j2 g nm weighted hR (hne x) hnm
  obtain ⟨w', hw'⟩ := C05_total (sampled N fun r => x (σ r)) p hp wt j1 j2 g nm weighted hR' (hne _) hnm
  refine ⟨w, hw, ?_⟩
  rw [hw']
  congr 1
  obtain ⟨ml, K, Kc, h1, h2, h3, -, h5, h6, h7, h8⟩ := wa_finite hwt hR hw
  obtain ⟨ml', K', Kc', h1', h2', h3', -, h5', h6', h7', h8'⟩ := wa_finite hwt hR' hw'
  rw [h1] at h1'
  cases h1'
  obtain rfl : K = K' := h2.unique h2'
  rw [← h3] at h3'
  subst h3'
  have hcs : coefSeq (wparams wt g nm) (sampled N fun r => x (σ r)) =
      fun s => Arr.sel σ (coefSeq (wparams wt g nm) (sampled N x) s) := by
    funext s; rw [sel_sampled, sel_coefSeq]
  have hls : leadSeq (wparams wt g nm) .inf (sampled N fun r => x (σ r)) =
      fun s => Arr.sel σ (leadSeq (wparams wt g nm) .inf (sampled N x) s) := by
    funext s; rw [sel_sampled, sel_leadSeq]
  have hwd : w'.warned = w.warned := by rw [Bool.eq_iff_iff, h6, h6']
  have hcoef : w'.wt_coefs = w.wt_coefs.sel σ := by rw [h5, h5', hcs, sel_scalesUpTo]
  have hj : w'.j2_eff = w.j2_eff := by rw [h7, h7']
  have heta : ∀ {R : ℕ} {sig : Arr R} {w : WT R}, waveletAnalysis sig p wt j1 j2 g nm weighted = .ok w → w.eta_p = none := by
    intro R sig w hw
    rcases hp with rfl | rfl
    · obtain ⟨_, _, _, _, _, e⟩ := wa_none_inv hw; rw [e]
    · obtain ⟨_, _, _, _, _, e⟩ := wa_inf_inv hw; rw [e]
  have hlead : w'.wt_leaders = w.wt_leaders.map (MRQ.sel σ) := by
    rcases hp with rfl | rfl
    · simp only at h8 h8'
      rw [h8, h8']; rfl
    · simp only at h8 h8'
      rw [h8, h8', hls, sel_scalesUpTo]; rfl
  have e1 := heta hw
  have e2 := heta hw'
  cases w
  cases w'
  simp only [WT.sel] at *
  subst hwd hcoef hj hlead e1 e2
  rfl

/-- C13: on finite signals the wavelet transform (without leaders, or with wavelet leaders) of some columns consists of
these columns of the transform, including `nj`, `j2_eff` and the warning. -/
theorem C13_wavelet (hR' : R' ≠ 0) {N : ℕ} (hN : N ≠ 0) (x : Fin R → ℤ → ℝ) {p : PExp} (hp : p = .none ∨ p = .inf)
    {wt : Wavelet} (hwt : wt.Valid) (j1 : ℤ) (j2 : Option ℝ) (g : ℝ) {nm : ℝ} (hnm : nm ≠ 0) (weighted : Bool) :
    waveletAnalysis (sampled N fun r => x (σ r)) p wt j1 j2 g nm weighted =
      (waveletAnalysis (sampled N x) p wt j1 j2 g nm weighted).map (WT.sel σ) := by
  obtain ⟨w, h1, h2⟩ := sel_wa_inf σ hR' hN x hp hwt j1 j2 g hnm weighted
  rw [h1, h2]; rfl

/-- C13 for p-leaders: if both calls return (the check `eta_p <= 0` looks at all realisations together), then the second
returns the columns of the first. -/
theorem C13_pleaders (hR' : R' ≠ 0) {N : ℕ} (hN : N ≠ 0) (x : Fin R → ℤ → ℝ) {e : Expo}
    {wt : Wavelet} (hwt : wt.Valid) {j1 : ℤ} {j2 : Option ℝ} {g nm : ℝ} (hnm : nm ≠ 0) {weighted : Bool} {w : WT R}
    {w' : WT R'} (h : waveletAnalysis (sampled N x) (.num e) wt j1 j2 g nm weighted = .ok w)
    (h' : waveletAnalysis (sampled N fun r => x (σ r)) (.num e) wt j1 j2 g nm weighted = .ok w') : w' = w.sel σ := by
  obtain ⟨wi, hi, hi'⟩ := sel_wa_inf σ hR' hN x (Or.inr rfl) hwt j1 j2 g hnm weighted
  have he : e.val ≠ 0 := by rw [(wa_num_inv h).1]; norm_num
  obtain ⟨K, hK, eq⟩ := wa_num_eq he hi
  obtain ⟨K', hK', eq'⟩ := wa_num_eq he hi'
  have hKK : K' = K := by
    have e1 : (wi.sel σ).wt_leaders = wi.wt_leaders.map (MRQ.sel σ) := rfl
    rw [hK, hK'] at e1
    simp only [Option.map_some, Option.some.injEq] at e1
    have := congrArg (fun m => m.values.length) e1
    simpa [scalesUpTo, MRQ.sel] using this
  subst hKK
  rw [h] at eq
  rw [h'] at eq'
  have heta : estimateEtaP (wi.sel σ).wt_coefs e j1 (wi.sel σ).j2_eff weighted =
      (estimateEtaP wi.wt_coefs e j1 wi.j2_eff weighted).map (Row.sel σ) := by
    unfold estimateEtaP
    rw [show (wi.sel σ).wt_coefs = wi.wt_coefs.sel σ from rfl, show (wi.sel σ).j2_eff = wi.j2_eff from rfl, C13_structure]
    cases StructFn.make wi.wt_coefs (.ndarray [e.val]) j1 wi.j2_eff weighted with
    | error x => rfl
    | ok s =>
      simp only [Except.map]
      rw [show (s.sel σ).zeta = Arr.sel σ s.zeta from rfl]
      cases s.zeta <;> rfl
  rw [heta] at eq'
  cases hh : estimateEtaP wi.wt_coefs e j1 wi.j2_eff weighted with
  | error x => rw [hh] at eq; cases eq
  | ok eta =>
    rw [hh] at eq eq'
    simp only [Except.map] at eq eq'
    split at eq
    · cases eq
    · split at eq'
      · cases eq'
      · cases eq
        cases eq'
        have hls : leadSeq (wparams wt g nm) (.num e) (sampled N fun r => x (σ r)) =
            fun s => Arr.sel σ (leadSeq (wparams wt g nm) (.num e) (sampled N x) s) := by
          funext s; rw [sel_sampled, sel_leadSeq]
        have hcs : corrSeq (Row.sel σ eta) e.val (leadSeq (wparams wt g nm) (.num e) (sampled N fun r => x (σ r))) =
            fun s => Arr.sel σ (corrSeq eta e.val (leadSeq (wparams wt g nm) (.num e) (sampled N x)) s) := by
          funext s
          rw [hls]
          simp only [corrSeq, Arr.sel, List.map_map]
          rfl
        rw [hcs, hls, sel_scalesUpTo, sel_scalesUpTo]
        rfl

/-- C13: `mf_analysis_full` (without leaders, or with wavelet leaders) on some columns of a finite signal gives these columns
of the full result, or the same exception. -/
theorem C13_full (hR' : R' ≠ 0) {N : ℕ} (hN : N ≠ 0) (x : Fin R → ℤ → ℝ) {p : PExp} (hp : p = .none ∨ p = .inf)
    {wt : Wavelet} (hwt : wt.Valid) (j1 : ℤ) (j2 : Option ℝ) (g : ℝ) {nm : ℝ} (hnm : nm ≠ 0) (weighted : Bool)
    (q : Option QArg) (n : ℕ) :
    mfAnalysisFull (sampled N fun r => x (σ r)) j1 j2 nm g weighted wt p q n =
      (mfAnalysisFull (sampled N x) j1 j2 nm g weighted wt p q n).map (MFData.sel σ) := by
  obtain ⟨w, h1, h2⟩ := sel_wa_inf σ hR' hN x hp hwt j1 j2 g hnm weighted
  unfold mfAnalysisFull
  rw [h1, h2]
  exact C13_mf_analysis σ w.wt_coefs w.wt_leaders w.j2_eff j1 weighted n q

/-- C13 in the usual form: column `r` of a result is the result on column `r` alone. -/
theorem C13_single_column {N : ℕ} (hN : N ≠ 0) (x : Fin R → ℤ → ℝ) (r : Fin R) {p : PExp} (hp : p = .none ∨ p = .inf)
    {wt : Wavelet} (hwt : wt.Valid) (j1 : ℤ) (j2 : Option ℝ) (g : ℝ) {nm : ℝ} (hnm : nm ≠ 0) (weighted : Bool)
    (q : Option QArg) (n : ℕ) :
    mfAnalysisFull (sampled N fun _ : Fin 1 => x r) j1 j2 nm g weighted wt p q n =
      (mfAnalysisFull (sampled N x) j1 j2 nm g weighted wt p q n).map (MFData.sel fun _ : Fin 1 => r) :=
  C13_full (fun _ : Fin 1 => r) (by norm_num) hN x hp hwt j1 j2 g hnm weighted q n

end MFA
