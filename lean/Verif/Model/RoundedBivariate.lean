import Verif.Model.RoundedWavelet
import Verif.Model.Bivariate

/-!
# The bivariate analysis in rounded arithmetic

The code of `pymultifracs/bivariate/*.py` on a `Machine`: every arithmetic operation, logarithm and power of `Verif.Model.Bivariate` is replaced with the rounded
one.  Comparisons of the arguments, selections of rows and the pairing of values do no arithmetic and are shared with that model.
-/

namespace MFA

open Classical

noncomputable section

namespace Machine

variable (M : Machine)

/-- bivariate_cumulants.py:59-63: `np.log(np.abs(·))` of both values. -/
def logPairs (ps : List (Fl × Fl)) : List (Fl × Fl) := ps.map fun p => (M.ln p.1.abs, M.ln p.2.abs)

/-- bivariate_cumulants.py:68-70. -/
def bcMoment (ls : List (Fl × Fl)) (m1 m2 : ℕ) : Fl :=
  M.nanmean (ls.map fun p => M.mul (M.fastPower (.real m1) p.1) (M.fastPower (.real m2) p.2))

/-- bivariate_cumulants.py:85-99. -/
def bcAux (m : ℕ) (values moments : ℕ → Fl) : Fl :=
  (List.range (m - 1)).foldl (fun aux ind_n =>
    M.add aux (M.mul (M.mul (Fl.fin ((Nat.choose (m - 1) ind_n : ℕ) : ℝ)) (values (ind_n + 1))) (moments (m - ind_n - 1)))) (Fl.fin 0)

/-- bivariate_cumulants.py:65-102: one iteration of the loops over `m1` and `m2` (at one scale). -/
def bcStep (ls : List (Fl × Fl)) (t : BiTable) (m : ℕ × ℕ) : BiTable :=
  let m1 := m.1
  let m2 := m.2
  let moments := upd2 t.moments m1 m2 (M.bcMoment ls m1 m2)
  if m1 = 1 ∧ m2 = 1 then
    { moments := moments
      values := upd2 t.values m1 m2 (M.sub (M.bcMoment ls m1 m2) (M.mul (t.values m1 0) (t.values 0 m2))) }
  else if m1 + m2 = 1 then
    { moments := moments, values := upd2 t.values m1 m2 (moments m1 m2) }
  else if Xor (m1 = 0) (m2 = 0) then
    let aux := if m1 = 0 then M.bcAux m2 (fun n => t.values m1 n) (fun n => moments m1 n)
      else M.bcAux m1 (fun n => t.values n m2) (fun n => moments n m2)
    { moments := moments, values := upd2 t.values m1 m2 (M.sub (moments m1 m2) aux) }
  else { moments := moments, values := t.values }

/-- bivariate_cumulants.py:50-102 `_compute` at one scale: the final arrays. -/
def bcTable (ls : List (Fl × Fl)) (n_cumul : ℕ) : BiTable :=
  (bcOrder n_cumul).foldl (M.bcStep ls) { moments := fun _ _ => Fl.fin 0, values := fun _ _ => Fl.fin 0 }

/-- The regression of one curve over the scales `j1 .. j2` (bivariate_cumulants.py:127-129, bivariate_structurefunction.py:94-95). -/
def biRegression (curve : List Fl) (j1 j2 : ℤ) (w : Weights 1) : Except PyErr (LinReg 1) :=
  M.linearRegression (tileScales 1 j1 j2) ((pySlice curve (j1 - 1) j2).map fun x _ => x) w

/-- bivariate_cumulants.py:134-141 `_compute_rho` on one entry. -/
def rhoOf (c11 c02 c20 : Fl) : Fl := M.div c11 (M.sqrt (M.mul c02 c20)).abs

/-- bivariate_cumulants.py:33-141: the constructor `BiCumulants(mrq1, mrq2, n_cumul, j1, j2, weighted)`, as `BiCumulants.make`, with rounded operations. -/
def biCumulants {R : ℕ} (same : Bool) (m1 m2 : MRQ R) (n_cumul : ℕ) (j1 j2 : ℤ) (weighted : Bool) : Except PyErr (BiCumulants R) :=
  if m1.formalism ≠ m2.formalism then .error .assertionError
  else match njEq same m1.nj m2.nj with
  | .error e => .error e
  | .ok false => .error .assertionError
  | .ok true => match pairScales m1 m2 with
    | .error e => .error e
    | .ok scales =>
      let values := fun (a b : ℕ) => scales.map fun ps => (M.bcTable (M.logPairs ps) n_cumul).values a b
      match biWeights m1.nj j1 j2 weighted with
      | .error e => .error e
      | .ok w => match mapE (fun p : ℕ × ℕ => M.biRegression (values p.1 p.2) j1 j2 w) (bcOrder n_cumul) with
        | .error e => .error e
        | .ok _ =>
          let slope := fun (a b : ℕ) => slopeOf (M.biRegression (values a b) j1 j2 w)
          let logc := fun (a b : ℕ) => M.mul (slope a b) M.log2e
          let obj : BiCumulants R := {
            formalism := m1.formalism, nj := m1.nj, j := m1.values.keys, n_cumul := n_cumul, j1 := j1, j2 := j2
            weighted := weighted, values := values, log_cumulants := logc, slope := slope
            intercept := fun a b => interceptOf (M.biRegression (values a b) j1 j2 w)
            RHO_MF := none, rho_mf := none }
          if m1.formalism = .coef then .ok obj
          else if n_cumul < 2 then .error .indexError
          else .ok { obj with
            RHO_MF := some ((List.range scales.length).map fun i =>
              M.rhoOf ((values 1 1).getD i Fl.nan) ((values 0 2).getD i Fl.nan) ((values 2 0).getD i Fl.nan))
            rho_mf := some (M.div (-(logc 1 1)) (M.sqrt (M.mul (logc 0 2) (logc 2 0))).abs) }

/-- bivariate_structurefunction.py:59-61. -/
def bsMean (ps : List (Fl × Fl)) (e1 e2 : Expo) : Fl :=
  M.nanmean (ps.map fun p => M.mul (M.fastPower e1 p.1) (M.fastPower e2 p.2))

/-- bivariate_structurefunction.py:64-66. -/
def bsAbsMean (ps : List (Fl × Fl)) (e1 e2 : Expo) : Fl :=
  M.nanmean (ps.map fun p => M.mul (M.fastPower e1 p.1.abs) (M.fastPower e2 p.2.abs))

/-- bivariate_structurefunction.py:68-70 `coherence`, as `bsCoherence`, with rounded operations. -/
def bsCoherence (scales : List (List (Fl × Fl))) : QArg → QArg → Except PyErr (List Fl)
  | .ndarray q1, .ndarray q2 =>
    let values := fun (a b : ℝ) => scales.map fun ps => M.bsMean ps (.real a) (.real b)
    match maskRows q1 q2 1 1 values with
    | .error e => .error e
    | .ok l11 => match first l11 with
      | .error e => .error e
      | .ok v11 => match maskRows q1 q2 2 0 values with
        | .error e => .error e
        | .ok l20 => match maskRows q1 q2 0 2 values with
          | .error e => .error e
          | .ok l02 => match bcast .valueError (fun x y => List.zipWith (fun s t => M.sqrt (M.mul s t)) x y) l20 l02 with
            | .error e => .error e
            | .ok den => match first den with
              | .error e => .error e
              | .ok d => .ok (List.zipWith M.div v11 d)
  | _, _ => .error .indexError

/-- bivariate_structurefunction.py:33-97: the constructor `BiStructureFunction(mrq1, mrq2, j1, j2, q1, q2, weighted)`, as `BiStructFn.make`, with rounded
operations. -/
def biStructFn {R : ℕ} (same : Bool) (m1 m2 : MRQ R) (j1 j2 : ℤ) (q1 q2 : QArg) (weighted : Bool) : Except PyErr BiStructFn :=
  if m1.formalism ≠ m2.formalism then .error .assertionError
  else if m1.gamint ≠ m2.gamint then .error .assertionError
  else match njEq same m1.nj m2.nj with
  | .error e => .error e
  | .ok false => .error .assertionError
  | .ok true =>
    if q1.expos = [] ∨ q2.expos = [] then .error .indexError
    else match pairScales m1 m2 with
    | .error e => .error e
    | .ok scales => match M.bsCoherence scales q1 q2 with
      | .error e => .error e
      | .ok coherence =>
        let logvalues := q1.expos.map fun e1 => q2.expos.map fun e2 => scales.map fun ps => M.log2 (M.bsAbsMean ps e1 e2)
        match biWeights m1.nj j1 j2 weighted with
        | .error e => .error e
        | .ok w => match mapE (fun l => mapE (fun curve => M.biRegression curve j1 j2 w) l) logvalues with
          | .error e => .error e
          | .ok regs => .ok {
              formalism := m1.formalism, gamint := m1.gamint, j := m1.values.keys, q1 := q1, q2 := q2, j1 := j1, j2 := j2
              weighted := weighted, logvalues := logvalues
              zeta := regs.map fun l => l.map fun g => g.slope 0
              intercept := regs.map fun l => l.map fun g => g.intercept 0
              coherence := coherence }

/-- bimfa.py:26-29, 36-39. -/
def biVar {R : ℕ} (same : Bool) (m1 m2 : MRQ R) (j1 j2 : ℤ) (weighted : Bool) (n_cumul : ℕ) (q1 q2 : Option QArg) :
    Except PyErr (MFBiVar R) :=
  match M.biCumulants same m1 m2 n_cumul j1 j2 weighted with
  | .error e => .error e
  | .ok c => match q1, q2 with
    | some q1, some q2 => match M.biStructFn same m1 m2 j1 j2 q1 q2 weighted with
      | .error e => .error e
      | .ok s => .ok { structure_ := s, cumulants := c }
    | _, _ => if m1.gamint ≠ m2.gamint then .error .assertionError else .error .typeError

/-- bimfa.py:11-41 `bivariate_analysis`, as `bivariateAnalysis`, with rounded operations. -/
def bivariateAnalysis {R : ℕ} (same : Bool) (w1 w2 : WT R) (j1 : ℤ) (weighted : Bool) (n_cumul : ℕ)
    (q1 q2 : Option QArg) : Except PyErr (MFBiVar R × MFBiVar R) :=
  let j2 := min w1.j2_eff w2.j2_eff
  match M.biVar same w1.wt_coefs w2.wt_coefs j1 j2 weighted n_cumul q1 q2 with
  | .error e => .error e
  | .ok dwt => match w1.wt_leaders, w2.wt_leaders with
    | some l1, some l2 => match M.biVar same l1 l2 j1 j2 weighted n_cumul q1 q2 with
      | .error e => .error e
      | .ok lwt => .ok (dwt, lwt)
    | _, _ => .error .unboundLocalError

/-- bimfa.py:44-61 `bivariate_analysis_full`, as `bivariateAnalysisFull`, with rounded operations. -/
def bivariateAnalysisFull {R : ℕ} (signal1 signal2 : Arr R) (j1 : ℤ) (j2 : Option ℝ) (normalization gamint : ℝ)
    (weighted : Bool) (wt : Wavelet) (p_exp : PExp) (q1 q2 : Option QArg) (n_cumul : ℕ) :
    Except PyErr (MFBiVar R × MFBiVar R) :=
  match M.waveletAnalysis signal1 p_exp wt j1 j2 gamint normalization weighted with
  | .error e => .error e
  | .ok w1 => match M.waveletAnalysis signal2 p_exp wt j1 j2 gamint normalization weighted with
    | .error e => .error e
    | .ok w2 => M.bivariateAnalysis false w1 w2 j1 weighted n_cumul q1 q2

end Machine

end

end MFA
