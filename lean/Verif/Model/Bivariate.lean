import Verif.Model.Cumulants
import Verif.Model.Wavelet

/-!
# Model of `pymultifracs/bivariate/*.py`

Two transforms with the same number `R` of realisations.  `same` says whether the two python arguments are one and the
same object (comparing a dict of arrays with itself does not compare the arrays).  Plotting is modelled in
`Verif.Model.Plot`.
-/

namespace MFA

open Classical

noncomputable section

/-- Truth value of `a == b` for two integer arrays of shape (nrep,): ValueError for more than one entry. -/
def arrEqTruth {R : ℕ} (a b : Fin R → ℕ) : Except PyErr Bool :=
  if R = 1 then .ok (decide (a = b)) else if R = 0 then .ok false else .error .valueError

/-- The comparison loop of python `dict.__eq__` over the entries of the first dict. -/
def njEqLoop {R : ℕ} (b : Dict (Fin R → ℕ)) : Dict (Fin R → ℕ) → Except PyErr Bool
  | [] => .ok true
  | (j, v) :: l => match b.get? j with
    | none => .ok false
    | some v' => match arrEqTruth v v' with
      | .error e => .error e
      | .ok false => .ok false
      | .ok true => njEqLoop b l

/-- bivariate_cumulants.py:40, bivariate_structurefunction.py:43: `mrq1.nj == mrq2.nj` (python `dict.__eq__`, values that
are the same object are equal). -/
def njEq {R : ℕ} (same : Bool) (a b : Dict (Fin R → ℕ)) : Except PyErr Bool :=
  if same then .ok true
  else if a.length ≠ b.length then .ok false
  else njEqLoop b a

/-- All entries of an array of shape (n, nrep), row by row. -/
def flat {R : ℕ} (a : Arr R) : List Fl := a.flatMap List.ofFn

/-- The pairs of entries that `a * b` multiplies (numpy broadcasting along axis 0; ValueError when the shapes do not
agree). -/
def pairUp {R : ℕ} (a b : Arr R) : Except PyErr (List (Fl × Fl)) :=
  if a.length = b.length then .ok ((flat a).zip (flat b))
  else match a, b with
    | [x], b => .ok ((flat (b.map fun _ => x)).zip (flat b))
    | a, [y] => .ok ((flat a).zip (flat (a.map fun _ => y)))
    | _, _ => .error .valueError

/-- The pairs of values of the two quantities at every scale of the first one (KeyError when the second has no such
scale). -/
def pairScales {R : ℕ} (m1 m2 : MRQ R) : Except PyErr (List (List (Fl × Fl))) :=
  mapE (fun p => match getKey m2.values p.1 with
    | .error e => .error e
    | .ok v => pairUp p.2 v) m1.values

/-- bivariate_cumulants.py:59-63: `np.log(np.abs(·))` of both values. -/
def logPairs (ps : List (Fl × Fl)) : List (Fl × Fl) := ps.map fun p => (p.1.abs.ln, p.2.abs.ln)

/-- bivariate_cumulants.py:68-70: `np.nanmean(fast_power(log1, m1) * fast_power(log2, m2))`, over all entries. -/
def bcMoment (ls : List (Fl × Fl)) (m1 m2 : ℕ) : Fl :=
  nanmean (ls.map fun p => fastPower (.real m1) p.1 * fastPower (.real m2) p.2)

/-- The two arrays `moments` and `self.values` of bivariate_cumulants.py:52-55 at one scale (indices up to `n_cumul`). -/
structure BiTable where
  moments : ℕ → ℕ → Fl
  values : ℕ → ℕ → Fl

/-- Array assignment. -/
def upd2 (f : ℕ → ℕ → Fl) (a b : ℕ) (x : Fl) : ℕ → ℕ → Fl := fun i k => if i = a ∧ k = b then x else f i k

/-- bivariate_cumulants.py:85-99: `aux += binom(m-1, n-1) * values[n] * moments[m-n]` for `n = 1 .. m-1`. -/
def bcAux (m : ℕ) (values moments : ℕ → Fl) : Fl :=
  (List.range (m - 1)).foldl (fun aux ind_n =>
    aux + Fl.fin ((Nat.choose (m - 1) ind_n : ℕ) : ℝ) * values (ind_n + 1) * moments (m - ind_n - 1)) (Fl.fin 0)

/-- bivariate_cumulants.py:65-102: one iteration of the loops over `m1` and `m2` (at one scale). -/
def bcStep (ls : List (Fl × Fl)) (t : BiTable) (m : ℕ × ℕ) : BiTable :=
  let m1 := m.1
  let m2 := m.2
  let moments := upd2 t.moments m1 m2 (bcMoment ls m1 m2)
  if m1 = 1 ∧ m2 = 1 then
    { moments := moments
      values := upd2 t.values m1 m2 (bcMoment ls m1 m2 - t.values m1 0 * t.values 0 m2) }
  else if m1 + m2 = 1 then
    { moments := moments, values := upd2 t.values m1 m2 (moments m1 m2) }
  else if Xor (m1 = 0) (m2 = 0) then
    let aux := if m1 = 0 then bcAux m2 (fun n => t.values m1 n) (fun n => moments m1 n)
      else bcAux m1 (fun n => t.values n m2) (fun n => moments n m2)
    { moments := moments, values := upd2 t.values m1 m2 (moments m1 m2 - aux) }
  else { moments := moments, values := t.values }

/-- The pairs `(m1, m2)` in the order of the loops (bivariate_cumulants.py:65-66). -/
def bcOrder (n_cumul : ℕ) : List (ℕ × ℕ) :=
  (List.range (n_cumul + 1)).flatMap fun m1 => (List.range (n_cumul + 1)).map fun m2 => (m1, m2)

/-- bivariate_cumulants.py:50-102 `_compute` at one scale: the final arrays. -/
def bcTable (ls : List (Fl × Fl)) (n_cumul : ℕ) : BiTable :=
  (bcOrder n_cumul).foldl (bcStep ls) { moments := fun _ _ => Fl.fin 0, values := fun _ _ => Fl.fin 0 }

/-- bivariate_cumulants.py:116-119, bivariate_structurefunction.py:83-86: the weights, one column.  With more than one
realisation (only possible when `same`) the slopes have `nrep` entries and cannot be stored (ValueError). -/
def biWeights {R : ℕ} (nj : Dict (Fin R → ℕ)) (j1 j2 : ℤ) (weighted : Bool) : Except PyErr (Weights 1) :=
  if weighted then match getNjRows nj j1 j2 with
    | .error e => .error e
    | .ok [] => .ok .flat0
    | .ok l => if h : R = 1 then .ok (.mat (l.map fun (row : Fin R → ℕ) (r : Fin 1) => Fl.fin (row (r.cast h.symm) : ℝ)))
      else .error .valueError
  else .ok (.mat ((arange j1 (j2 + 1)).map fun _ _ => Fl.fin 1))

/-- The regression of one curve over the scales `j1 .. j2` (bivariate_cumulants.py:127-129,
bivariate_structurefunction.py:94-95). -/
def biRegression (curve : List Fl) (j1 j2 : ℤ) (w : Weights 1) : Except PyErr (LinReg 1) :=
  linearRegression (tileScales 1 j1 j2) ((pySlice curve (j1 - 1) j2).map fun x _ => x) w

/-- The slope of a regression that did not raise. -/
def slopeOf : Except PyErr (LinReg 1) → Fl
  | .ok g => g.slope 0
  | .error _ => Fl.nan

/-- The intercept of a regression that did not raise. -/
def interceptOf : Except PyErr (LinReg 1) → Fl
  | .ok g => g.intercept 0
  | .error _ => Fl.nan

/-- bivariate_cumulants.py:16-31 `BiCumulants`.  The arrays of shape (n_cumul+1, n_cumul+1, ...) are functions of their first
two indices, meant for indices up to `n_cumul`. -/
structure BiCumulants (R : ℕ) where
  formalism : Formalism
  nj : Dict (Fin R → ℕ)
  j : List ℤ
  n_cumul : ℕ
  j1 : ℤ
  j2 : ℤ
  weighted : Bool
  values : ℕ → ℕ → List Fl
  log_cumulants : ℕ → ℕ → Fl
  slope : ℕ → ℕ → Fl
  intercept : ℕ → ℕ → Fl
  RHO_MF : Option (List Fl)
  rho_mf : Option Fl

/-- bivariate_cumulants.py:134-141 `_compute_rho` on one entry: `C11 / |sqrt(C02 * C20)|`. -/
def rhoOf (c11 c02 c20 : Fl) : Fl := c11 / (c02 * c20).sqrt.abs

/-- bivariate_cumulants.py:33-141: the constructor `BiCumulants(mrq1, mrq2, n_cumul, j1, j2, weighted)`. -/
def BiCumulants.make {R : ℕ} (same : Bool) (m1 m2 : MRQ R) (n_cumul : ℕ) (j1 j2 : ℤ) (weighted : Bool) :
    Except PyErr (BiCumulants R) :=
  if m1.formalism ≠ m2.formalism then .error .assertionError                          -- line 37
  else match njEq same m1.nj m2.nj with                                               -- line 40
  | .error e => .error e
  | .ok false => .error .assertionError
  | .ok true => match pairScales m1 m2 with
    | .error e => .error e
    | .ok scales =>
      let values := fun (a b : ℕ) => scales.map fun ps => (bcTable (logPairs ps) n_cumul).values a b
      match biWeights m1.nj j1 j2 weighted with
      | .error e => .error e
      | .ok w => match mapE (fun p : ℕ × ℕ => biRegression (values p.1 p.2) j1 j2 w) (bcOrder n_cumul) with
        | .error e => .error e
        | .ok _ =>
          let slope := fun (a b : ℕ) => slopeOf (biRegression (values a b) j1 j2 w)     -- line 131
          let logc := fun (a b : ℕ) => slope a b * Fl.fin log2e                        -- line 130
          let obj : BiCumulants R := {
            formalism := m1.formalism, nj := m1.nj, j := m1.values.keys, n_cumul := n_cumul, j1 := j1, j2 := j2
            weighted := weighted, values := values, log_cumulants := logc, slope := slope
            intercept := fun a b => interceptOf (biRegression (values a b) j1 j2 w)     -- line 132
            RHO_MF := none, rho_mf := none }
          if m1.formalism = .coef then .ok obj                                         -- lines 136-138
          else if n_cumul < 2 then .error .indexError                                  -- line 140, `[0]` of an empty array
          else .ok { obj with
            RHO_MF := some ((List.range scales.length).map fun i =>
              rhoOf ((values 1 1).getD i Fl.nan) ((values 0 2).getD i Fl.nan) ((values 2 0).getD i Fl.nan))
            rho_mf := some (-(logc 1 1) / ((logc 0 2) * (logc 2 0)).sqrt.abs) }

/-- bivariate_cumulants.py:211-229 `compute_legendre` (`n_cumul >= 2`; `self.c10` etc. are the log-cumulants): the support and
`L[i][j]`. -/
def BiCumulants.computeLegendre {R : ℕ} (c : BiCumulants R) (h_support : ℝ × ℝ) (resolution : ℕ) :
    List ℝ × (ℕ → ℕ → Fl) :=
  let h := linspace h_support.1 h_support.2 resolution
  let b := c.log_cumulants 2 0 * c.log_cumulants 0 2 - c.log_cumulants 1 1 * c.log_cumulants 1 1
  let u := fun (i : ℕ) => (Fl.fin (h.getD i 0) - c.log_cumulants 1 0) / b
  let v := fun (i : ℕ) => (Fl.fin (h.getD i 0) - c.log_cumulants 0 1) / b
  (h, fun i k => Fl.fin 1
    + c.log_cumulants 0 2 * b / Fl.fin 2 * (u i * u i)                                 -- line 220
    + c.log_cumulants 2 0 * b / Fl.fin 2 * (v k * v k)                                 -- line 221
    - c.log_cumulants 1 1 * b * u i * v k)                                             -- lines 225-227

/-! ### Structure functions -/

/-- bivariate_structurefunction.py:17-31 `BiStructureFunction` (`logvalues` of shape (n_q1, n_q2, n_scales)). -/
structure BiStructFn where
  formalism : Formalism
  gamint : ℝ
  j : List ℤ
  q1 : QArg
  q2 : QArg
  j1 : ℤ
  j2 : ℤ
  weighted : Bool
  logvalues : List (List (List Fl))
  zeta : List (List Fl)
  intercept : List (List Fl)
  coherence : List Fl

/-- bivariate_structurefunction.py:59-61: `np.nanmean(fast_power(v1, q1) * fast_power(v2, q2))`. -/
def bsMean (ps : List (Fl × Fl)) (e1 e2 : Expo) : Fl :=
  nanmean (ps.map fun p => fastPower e1 p.1 * fastPower e2 p.2)

/-- bivariate_structurefunction.py:64-66: the same with absolute values. -/
def bsAbsMean (ps : List (Fl × Fl)) (e1 e2 : Expo) : Fl :=
  nanmean (ps.map fun p => fastPower e1 p.1.abs * fastPower e2 p.2.abs)

/-- numpy broadcasting of two lists (of index values or rows); the exception is `err`. -/
def bcast {α β γ : Type} (err : PyErr) (f : α → β → γ) (a : List α) (b : List β) : Except PyErr (List γ) :=
  if a.length = b.length then .ok (List.zipWith f a b)
  else match a, b with
    | [x], b => .ok (b.map fun y => f x y)
    | a, [y] => .ok (a.map fun x => f x y)
    | _, _ => .error err

/-- Positions of the entries equal to `v` (`(q == v).nonzero()`). -/
def positions (q : List ℝ) (v : ℝ) : List ℕ := (List.range q.length).filter fun i => q[i]? = some v

/-- `values[q1 == a, q2 == b]` for numpy arrays `q1`, `q2`: the selected rows over the scales (IndexError when the numbers of
selected indices do not agree). -/
def maskRows (q1 q2 : List ℝ) (a b : ℝ) (values : ℝ → ℝ → List Fl) : Except PyErr (List (List Fl)) :=
  bcast .indexError (fun i k => values (q1.getD i 0) (q2.getD k 0)) (positions q1 a) (positions q2 b)

/-- `[0]` of an array: IndexError when it is empty. -/
def first {α : Type} : List α → Except PyErr α
  | [] => .error .indexError
  | x :: _ => .ok x

/-- bivariate_structurefunction.py:68-70 `coherence`; for a python list `self.q1 == 1` is the scalar `False`, which selects
nothing (IndexError). -/
def bsCoherence (scales : List (List (Fl × Fl))) : QArg → QArg → Except PyErr (List Fl)
  | .ndarray q1, .ndarray q2 =>
    let values := fun (a b : ℝ) => scales.map fun ps => bsMean ps (.real a) (.real b)
    match maskRows q1 q2 1 1 values with
    | .error e => .error e
    | .ok l11 => match first l11 with
      | .error e => .error e
      | .ok v11 => match maskRows q1 q2 2 0 values with
        | .error e => .error e
        | .ok l20 => match maskRows q1 q2 0 2 values with
          | .error e => .error e
          | .ok l02 => match bcast .valueError (fun x y => List.zipWith (fun s t => (s * t).sqrt) x y) l20 l02 with
            | .error e => .error e
            | .ok den => match first den with
              | .error e => .error e
              | .ok d => .ok (List.zipWith (· / ·) v11 d)
  | _, _ => .error .indexError

/-- bivariate_structurefunction.py:33-97: the constructor `BiStructureFunction(mrq1, mrq2, j1, j2, q1, q2, weighted)`. -/
def BiStructFn.make {R : ℕ} (same : Bool) (m1 m2 : MRQ R) (j1 j2 : ℤ) (q1 q2 : QArg) (weighted : Bool) :
    Except PyErr BiStructFn :=
  if m1.formalism ≠ m2.formalism then .error .assertionError                          -- line 37
  else if m1.gamint ≠ m2.gamint then .error .assertionError                           -- line 40
  else match njEq same m1.nj m2.nj with                                               -- line 43
  | .error e => .error e
  | .ok false => .error .assertionError
  | .ok true =>
    if q1.expos = [] ∨ q2.expos = [] then .error .indexError                          -- line 68, nothing was computed
    else match pairScales m1 m2 with
    | .error e => .error e
    | .ok scales => match bsCoherence scales q1 q2 with
      | .error e => .error e
      | .ok coherence =>
        let logvalues := q1.expos.map fun e1 => q2.expos.map fun e2 => scales.map fun ps => (bsAbsMean ps e1 e2).log2
        match biWeights m1.nj j1 j2 weighted with
        | .error e => .error e
        | .ok w => match mapE (fun l => mapE (fun curve => biRegression curve j1 j2 w) l) logvalues with
          | .error e => .error e
          | .ok regs => .ok {
              formalism := m1.formalism, gamint := m1.gamint, j := m1.values.keys, q1 := q1, q2 := q2, j1 := j1, j2 := j2
              weighted := weighted, logvalues := logvalues
              zeta := regs.map fun l => l.map fun g => g.slope 0
              intercept := regs.map fun l => l.map fun g => g.intercept 0
              coherence := coherence }

/-- bimfa.py:8 `MFractalBiVar`. -/
structure MFBiVar (R : ℕ) where
  structure_ : BiStructFn
  cumulants : BiCumulants R

/-- bimfa.py:26-29, 36-39: cumulants first, then structure functions; a missing (`None`) `q1` or `q2` has no length
(TypeError, after the assertions). -/
def biVar {R : ℕ} (same : Bool) (m1 m2 : MRQ R) (j1 j2 : ℤ) (weighted : Bool) (n_cumul : ℕ) (q1 q2 : Option QArg) :
    Except PyErr (MFBiVar R) :=
  match BiCumulants.make same m1 m2 n_cumul j1 j2 weighted with
  | .error e => .error e
  | .ok c => match q1, q2 with
    | some q1, some q2 => match BiStructFn.make same m1 m2 j1 j2 q1 q2 weighted with
      | .error e => .error e
      | .ok s => .ok { structure_ := s, cumulants := c }
    | _, _ => if m1.gamint ≠ m2.gamint then .error .assertionError else .error .typeError

/-- bimfa.py:11-41 `bivariate_analysis`: the pair (dwt, lwt); without leaders on both sides the local variable `lwt` is
unbound. -/
def bivariateAnalysis {R : ℕ} (same : Bool) (w1 w2 : WT R) (j1 : ℤ) (weighted : Bool) (n_cumul : ℕ)
    (q1 q2 : Option QArg) : Except PyErr (MFBiVar R × MFBiVar R) :=
  let j2 := min w1.j2_eff w2.j2_eff                                                    -- bimfa.py:13
  match biVar same w1.wt_coefs w2.wt_coefs j1 j2 weighted n_cumul q1 q2 with
  | .error e => .error e
  | .ok dwt => match w1.wt_leaders, w2.wt_leaders with
    | some l1, some l2 => match biVar same l1 l2 j1 j2 weighted n_cumul q1 q2 with
      | .error e => .error e
      | .ok lwt => .ok (dwt, lwt)
    | _, _ => .error .unboundLocalError                                                -- bimfa.py:41

/-- bimfa.py:44-61 `bivariate_analysis_full`: two transforms, hence two different objects. -/
def bivariateAnalysisFull {R : ℕ} (signal1 signal2 : Arr R) (j1 : ℤ) (j2 : Option ℝ) (normalization gamint : ℝ)
    (weighted : Bool) (wt : Wavelet) (p_exp : PExp) (q1 q2 : Option QArg) (n_cumul : ℕ) :
    Except PyErr (MFBiVar R × MFBiVar R) :=
  match waveletAnalysis signal1 p_exp wt j1 j2 gamint normalization weighted with
  | .error e => .error e
  | .ok w1 => match waveletAnalysis signal2 p_exp wt j1 j2 gamint normalization weighted with
    | .error e => .error e
    | .ok w2 => bivariateAnalysis false w1 w2 j1 weighted n_cumul q1 q2

end

end MFA
