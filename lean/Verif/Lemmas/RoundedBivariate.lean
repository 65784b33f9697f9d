import Verif.Model.RoundedBivariate
import Verif.Lemmas.RoundedFamily
import Verif.Lemmas.RoundedWavelet
import Verif.Lemmas.Bivariate
import Verif.Props.BiStructure

/-! The rounded bivariate analysis: the exact machine, and closed forms. -/

namespace MFA

open Classical Filter Topology

noncomputable section

namespace Machine

theorem exact_log2e : exact.log2e = Fl.fin MFA.log2e := by
  show Fl.log2 (Fl.fin (Real.exp 1)) = _
  simp only [Fl.log2, Fl.logOf, if_pos (Real.exp_pos 1)]
  rfl

theorem exact_bcMoment : exact.bcMoment = MFA.bcMoment := by
  funext ls a b
  unfold bcMoment MFA.bcMoment
  rw [exact_nanmean]
  rfl

theorem exact_bcTable : exact.bcTable = MFA.bcTable := by
  funext ls n
  have : exact.bcStep = MFA.bcStep := by
    funext ls t m
    unfold bcStep MFA.bcStep
    rw [exact_bcMoment]
    rfl
  unfold bcTable MFA.bcTable
  rw [this]

theorem exact_biRegression : exact.biRegression = MFA.biRegression := by
  funext c j1 j2 w
  unfold biRegression MFA.biRegression
  rw [exact_linearRegression]

theorem exact_biCumulants {R : ℕ} : @biCumulants exact R = @BiCumulants.make R := by
  funext same m1 m2 n j1 j2 weighted
  unfold biCumulants BiCumulants.make
  rw [exact_bcTable, exact_biRegression, exact_log2e]
  rfl

theorem exact_bsMean : exact.bsMean = MFA.bsMean := by
  funext ps a b
  unfold bsMean MFA.bsMean
  rw [exact_nanmean]
  rfl

theorem exact_bsAbsMean : exact.bsAbsMean = MFA.bsAbsMean := by
  funext ps a b
  unfold bsAbsMean MFA.bsAbsMean
  rw [exact_nanmean]
  rfl

theorem exact_bsCoherence : exact.bsCoherence = MFA.bsCoherence := by
  funext s q1 q2
  unfold bsCoherence MFA.bsCoherence
  rw [exact_bsMean]
  rfl

theorem exact_biStructFn {R : ℕ} : @biStructFn exact R = @BiStructFn.make R := by
  funext same m1 m2 j1 j2 q1 q2 weighted
  unfold biStructFn BiStructFn.make
  rw [exact_bsCoherence, exact_biRegression, exact_bsAbsMean]
  rfl

theorem exact_biVar {R : ℕ} : @biVar exact R = @MFA.biVar R := by
  funext same m1 m2 j1 j2 weighted n q1 q2
  unfold biVar MFA.biVar
  rw [exact_biCumulants, exact_biStructFn]
  rfl

/-- On the machine that computes exactly, the rounded bivariate analysis is the exact one. -/
theorem exact_bivariateAnalysisFull {R : ℕ} : @bivariateAnalysisFull exact R = @MFA.bivariateAnalysisFull R := by
  funext s1 s2 j1 j2 nm g weighted wt p q1 q2 n
  unfold bivariateAnalysisFull MFA.bivariateAnalysisFull bivariateAnalysis MFA.bivariateAnalysis
  rw [exact_waveletAnalysis, exact_biVar]
  rfl

/-! ### Closed forms -/

variable (M : Machine)

/-- Slope over the common scales of a curve. -/
def biSlope (m1 m2 : MRQ 1) (j1 j2 : ℤ) (weighted : Bool) (f : (ℤ × Arr 1) × (ℤ × Arr 1) → Fl) : Fl :=
  M.slopeL (biSub m1 m2 j1 j2) (fun q => (q.1.1 : ℝ)) (fun q => wtOf weighted q.1 0) f

def biInter (m1 m2 : MRQ 1) (j1 j2 : ℤ) (weighted : Bool) (f : (ℤ × Arr 1) × (ℤ × Arr 1) → Fl) : Fl :=
  M.interL (biSub m1 m2 j1 j2) (fun q => (q.1.1 : ℝ)) (fun q => wtOf weighted q.1 0) f

/-- The value of `C_{ab}` at one scale. -/
def bcAt (n a b : ℕ) (q : (ℤ × Arr 1) × (ℤ × Arr 1)) : Fl := (M.bcTable (M.logPairs (biPairs q)) n).values a b

/-- `log2 S(j, q1, q2)` at one scale. -/
def bsLog (e1 e2 : ℝ) (q : (ℤ × Arr 1) × (ℤ × Arr 1)) : Fl := M.log2 (M.bsAbsMean (biPairs q) (.real e1) (.real e2))

/-- The coherence of one scale. -/
def cohOf (ps : List (Fl × Fl)) : Fl :=
  M.div (M.bsMean ps (.real 1) (.real 1)) (M.sqrt (M.mul (M.bsMean ps (.real 2) (.real 0)) (M.bsMean ps (.real 0) (.real 2))))

theorem bsCoherence_ok {q1 q2 : List ℝ} (h1 : q1.Nodup) (h2 : q2.Nodup) (h01 : (0:ℝ) ∈ q1) (h11 : (1:ℝ) ∈ q1)
    (h21 : (2:ℝ) ∈ q1) (h02 : (0:ℝ) ∈ q2) (h12 : (1:ℝ) ∈ q2) (h22 : (2:ℝ) ∈ q2) (scales : List (List (Fl × Fl))) :
    M.bsCoherence scales (.ndarray q1) (.ndarray q2) = .ok (scales.map M.cohOf) := by
  unfold bsCoherence
  simp only [maskRows_nodup h1 h2 h11 h12, maskRows_nodup h1 h2 h21 h02, maskRows_nodup h1 h2 h01 h22, first, bcast,
    List.length_cons, List.length_nil, if_true, List.zipWith_cons_cons, List.zipWith_nil_left]
  rw [zipWith_map_map, zipWith_map_map]
  rfl

end Machine

section
variable (M : Machine) {m1 m2 : MRQ 1} {J : ℕ} {j1 j2 : ℤ}

theorem Paired.regressionM (h : Paired m1 m2 J) (h1 : 1 ≤ j1) (h12 : j1 ≤ j2) (h2 : j2 ≤ J) (weighted : Bool)
    (f : (ℤ × Arr 1) × (ℤ × Arr 1) → Fl) :
    ∃ var, M.biRegression ((biList m1 m2).map f) j1 j2 (biW m1 m2 j1 j2 weighted) =
      .ok ⟨fun _ => M.biSlope m1 m2 j1 j2 weighted f, fun _ => M.biInter m1 m2 j1 j2 weighted f, var⟩ := by
  unfold Machine.biRegression biW
  rw [h.reg1.tile h1 h12 h2, h.sub_fst, List.map_map, pySlice_map, List.map_map]
  have := M.linearRegression_map (R := 1) (biSub m1 m2 j1 j2) (fun q => (q.1.1 : ℝ)) (fun q r => wtOf weighted q.1 r)
    (fun q _ => f q)
  have e1 : (fun r : Fin 1 => M.slopeL (biSub m1 m2 j1 j2) (fun q => (q.1.1 : ℝ)) (fun p => wtOf weighted p.1 r) fun p => f p)
      = fun _ => M.biSlope m1 m2 j1 j2 weighted f := by
    funext r; rw [Subsingleton.elim r 0]; rfl
  have e2 : (fun r : Fin 1 => M.interL (biSub m1 m2 j1 j2) (fun q => (q.1.1 : ℝ)) (fun p => wtOf weighted p.1 r) fun p => f p)
      = fun _ => M.biInter m1 m2 j1 j2 weighted f := by
    funext r; rw [Subsingleton.elim r 0]; rfl
  rw [e1, e2] at this
  exact ⟨_, this⟩

/-- Closed form of the constructor. -/
theorem Paired.biCumulantsM (h : Paired m1 m2 J) (h1 : 1 ≤ j1) (h12 : j1 ≤ j2) (h2 : j2 ≤ J) (weighted : Bool)
    (same : Bool) {n : ℕ} (hn : 2 ≤ n) :
    ∃ c, M.biCumulants same m1 m2 n j1 j2 weighted = .ok c ∧
      (∀ a b, c.log_cumulants a b = M.mul (M.biSlope m1 m2 j1 j2 weighted (M.bcAt n a b)) M.log2e) ∧
      (m1.formalism ≠ .coef → c.RHO_MF = some ((biList m1 m2).map fun q => M.rhoOf (M.bcAt n 1 1 q) (M.bcAt n 0 2 q) (M.bcAt n 2 0 q)) ∧
        c.rho_mf = some (M.div (-(c.log_cumulants 1 1)) (M.sqrt (M.mul (c.log_cumulants 0 2) (c.log_cumulants 2 0))).abs)) := by
  have hval : ∀ a b, ((biList m1 m2).map biPairs).map (fun ps => (M.bcTable (M.logPairs ps) n).values a b) =
      (biList m1 m2).map (M.bcAt n a b) := by
    intro a b; rw [List.map_map]; rfl
  have hreg : ∀ a b, ∃ var, M.biRegression ((biList m1 m2).map (M.bcAt n a b)) j1 j2 (biW m1 m2 j1 j2 weighted) =
      .ok ⟨fun _ => M.biSlope m1 m2 j1 j2 weighted (M.bcAt n a b), fun _ => M.biInter m1 m2 j1 j2 weighted (M.bcAt n a b), var⟩ :=
    fun a b => h.regressionM M h1 h12 h2 weighted _
  have hs : ∀ a b, slopeOf (M.biRegression ((biList m1 m2).map (M.bcAt n a b)) j1 j2 (biW m1 m2 j1 j2 weighted)) =
      M.biSlope m1 m2 j1 j2 weighted (M.bcAt n a b) := by
    intro a b; obtain ⟨v, hv⟩ := hreg a b; rw [hv]; rfl
  have hi : ∀ a b, interceptOf (M.biRegression ((biList m1 m2).map (M.bcAt n a b)) j1 j2 (biW m1 m2 j1 j2 weighted)) =
      M.biInter m1 m2 j1 j2 weighted (M.bcAt n a b) := by
    intro a b; obtain ⟨v, hv⟩ := hreg a b; rw [hv]; rfl
  have hm : ∃ regs, mapE (fun p : ℕ × ℕ => M.biRegression ((biList m1 m2).map (M.bcAt n p.1 p.2)) j1 j2
      (biW m1 m2 j1 j2 weighted)) (bcOrder n) = .ok regs := by
    choose var hvar using hreg
    exact ⟨_, mapE_ok _ _ _ (fun p _ => hvar p.1 p.2)⟩
  obtain ⟨regs, hregs⟩ := hm
  unfold Machine.biCumulants
  rw [if_neg (by simp [h.formalism]), h.njEq same]
  simp only [h.pairScales, hval, h.weights h1 h12 h2 weighted, hregs, hs, hi]
  by_cases hc : m1.formalism = .coef
  · rw [if_pos hc]
    exact ⟨_, rfl, fun _ _ => rfl, fun h' => (h' hc).elim⟩
  · rw [if_neg hc, if_neg (by omega)]
    refine ⟨_, rfl, fun _ _ => rfl, fun _ => ⟨?_, rfl⟩⟩
    simp only [List.length_map]
    congr 1
    apply List.ext_getElem
    · simp
    · intro i hi1 hi2
      simp at hi1
      simp [hi1]

/-- The parts of a result of the rounded analysis. -/
theorem Paired.biVarM (hp : Paired m1 m2 J) (a1 : 1 ≤ j1) (a2 : j1 ≤ j2) (a3 : j2 ≤ J) (weighted : Bool)
    {q1 q2 : List ℝ} (hn1 : q1.Nodup) (hn2 : q2.Nodup)
    (hq1 : (0:ℝ) ∈ q1 ∧ (1:ℝ) ∈ q1 ∧ (2:ℝ) ∈ q1) (hq2 : (0:ℝ) ∈ q2 ∧ (1:ℝ) ∈ q2 ∧ (2:ℝ) ∈ q2) {n : ℕ} (hn : 2 ≤ n) :
    ∃ v : MFBiVar 1, M.biVar false m1 m2 j1 j2 weighted n (some (.ndarray q1)) (some (.ndarray q2)) = .ok v ∧
    (∀ (i k : ℕ) (e1 e2 : ℝ), q1[i]? = some e1 → q2[k]? = some e2 → (v.structure_.zeta[i]?.bind fun l => l[k]?) =
      some (M.biSlope m1 m2 j1 j2 weighted (M.bsLog e1 e2))) ∧
    v.structure_.coherence = (biList m1 m2).map (fun q => M.cohOf (biPairs q)) ∧
    (∀ a b, v.cumulants.log_cumulants a b = M.mul (M.biSlope m1 m2 j1 j2 weighted (M.bcAt n a b)) M.log2e) ∧
    (m1.formalism ≠ .coef → v.cumulants.rho_mf =
      some (M.div (-(v.cumulants.log_cumulants 1 1)) (M.sqrt (M.mul (v.cumulants.log_cumulants 0 2) (v.cumulants.log_cumulants 2 0))).abs)) := by
  obtain ⟨c, hc, hlc, hrho⟩ := hp.biCumulantsM M a1 a2 a3 weighted false hn
  have hcoh := M.bsCoherence_ok (scales := (biList m1 m2).map biPairs) hn1 hn2 hq1.1 hq1.2.1 hq1.2.2 hq2.1 hq2.2.1 hq2.2.2
  choose var hvar using fun e1 e2 => hp.regressionM M a1 a2 a3 weighted (M.bsLog e1 e2)
  have hregs : mapE (fun l => mapE (fun curve => M.biRegression curve j1 j2 (biW m1 m2 j1 j2 weighted)) l)
      (q1.map fun e1 => q2.map fun e2 => (biList m1 m2).map (M.bsLog e1 e2)) =
      .ok (q1.map fun e1 => q2.map fun e2 => ⟨fun _ => M.biSlope m1 m2 j1 j2 weighted (M.bsLog e1 e2),
        fun _ => M.biInter m1 m2 j1 j2 weighted (M.bsLog e1 e2), var e1 e2⟩) := by
    apply mapE_map_ok
    intro e1 _
    apply mapE_map_ok
    intro e2 _
    exact hvar e1 e2
  have hne : ¬ ((QArg.ndarray q1).expos = [] ∨ (QArg.ndarray q2).expos = []) := by
    rw [expos_ndarray, expos_ndarray, List.map_eq_nil_iff, List.map_eq_nil_iff]
    rintro (rfl | rfl)
    · cases hq1.1
    · cases hq2.1
  obtain ⟨s, hs, hz, hcoh'⟩ : ∃ s, M.biStructFn false m1 m2 j1 j2 (.ndarray q1) (.ndarray q2) weighted = .ok s ∧
      s.zeta = (q1.map fun e1 => q2.map fun e2 => M.biSlope m1 m2 j1 j2 weighted (M.bsLog e1 e2)) ∧
      s.coherence = (biList m1 m2).map (fun q => M.cohOf (biPairs q)) := by
    unfold Machine.biStructFn
    rw [if_neg (by simp [hp.formalism]), if_neg (by simp [hp.gamint]), hp.njEq false]
    simp only
    rw [if_neg hne]
    simp only [hp.pairScales, hcoh, hp.weights a1 a2 a3 weighted, expos_ndarray, List.map_map, Function.comp_def] at hregs ⊢
    have hval' : ∀ e1 e2 : ℝ, (biList m1 m2).map (fun x => M.log2 (M.bsAbsMean (biPairs x) (.real e1) (.real e2))) =
        (biList m1 m2).map (M.bsLog e1 e2) := fun _ _ => rfl
    simp only [hval', hregs, List.map_map, Function.comp_def]
    exact ⟨_, rfl, rfl, rfl⟩
  refine ⟨{ structure_ := s, cumulants := c }, ?_, ?_, hcoh', hlc, fun hf => (hrho hf).2⟩
  · unfold Machine.biVar
    simp only [hc, hs]
  · intro i k e1 e2 hi hk
    simp only [hz, List.getElem?_map, hi, Option.map_some, Option.bind_some, hk]

end

end

end MFA
