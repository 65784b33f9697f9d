import Verif.Model.StructureFunction

/-!
# Model of `pymultifracs/cumulants.py`
-/

namespace MFA

open Classical

noncomputable section

/-- cumulants.py:106: `np.nanmean(fast_power(log_T_X_j, m), axis=0)` on one column; `m` is a numpy integer, so
`isinstance(m, int)` is false in `fast_power`. -/
def cmMoment (logs : List Fl) (m : ℕ) : Fl := nanmean (logs.map (fastPower (.real m)))

/-- cumulants.py:111-116: the inner loop `aux += binom(m-1, n-1) * values[ind_n] * moments[ind_m-ind_n-1]`
over `ind_n = 0 .. m-2` (`n = ind_n + 1`, `ind_m = m - 1`). -/
def cmAux (m : ℕ) (values moments : List Fl) : Fl :=
  (List.range (m - 1)).foldl (fun aux ind_n =>
    aux + Fl.fin ((Nat.choose (m - 1) ind_n : ℕ) : ℝ) * values.getD ind_n Fl.nan
        * moments.getD (m - 1 - ind_n - 1) Fl.nan) (Fl.fin 0)

/-- One iteration of the loop over `m` (cumulants.py:104-118) on one column; the state is the pair of the
already computed cumulants and moments. -/
def cmStep (logs : List Fl) (st : List Fl × List Fl) (m : ℕ) : List Fl × List Fl :=
  let mom := st.2 ++ [cmMoment logs m]
  if m = 1 then (st.1 ++ [cmMoment logs m], mom)
  else (st.1 ++ [cmMoment logs m - cmAux m st.1 mom], mom)

/-- cumulants.py:101-118: cumulants of order `1 .. n` of one column of logs. -/
def cmColumn (logs : List Fl) (n : ℕ) : List Fl :=
  ((List.range n).foldl (fun st i => cmStep logs st (i + 1)) ([], [])).1

/-- cumulants.py:101-102: `np.log(np.abs(mrq.values[j]))` on one column. -/
def logAbsCol {R : ℕ} (c : Arr R) (r : Fin R) : List Fl := (col c r).map (fun x => x.abs.ln)

/-- cumulants.py:95-118 `_compute`: `values[m-1][ind_j][r]`, shape (n_cumul, n_scales, nrep). -/
def cmValues {R : ℕ} (m : MRQ R) (n_cumul : ℕ) : List (Arr R) :=
  (List.range n_cumul).map fun i => m.values.map fun p r => (cmColumn (logAbsCol p.2 r) n_cumul).getD i Fl.nan

/-- cumulants.py:18-80 `Cumulants`; `n_cumul` is taken non-negative (`np.arange(1, n_cumul+1)`). -/
structure Cumulants (R : ℕ) where
  formalism : Formalism
  nj : Dict (Fin R → ℕ)
  j : List ℤ
  n_cumul : ℕ
  j1 : ℤ
  j2 : ℤ
  weighted : Bool
  values : List (Arr R)
  log_cumulants : Arr R
  var_log_cumulants : Arr R
  slope : Arr R
  intercept : Arr R

/-- `np.log2(np.exp(1))` (cumulants.py:130). -/
def log2e : ℝ := Real.logb 2 (Real.exp 1)

/-- cumulants.py:82-153: constructor `Cumulants(mrq, n_cumul, j1, j2, weighted)`. -/
def Cumulants.make {R : ℕ} (m : MRQ R) (n_cumul : ℕ) (j1 j2 : ℤ) (weighted : Bool) :
    Except PyErr (Cumulants R) :=
  match m.checkNrep with
  | .error e => .error e
  | .ok () =>
    let values := cmValues m n_cumul
    match regWeights m.nj j1 j2 weighted with                          -- cumulants.py:135-138
    | .error e => .error e
    | .ok w =>
      match mapE (fun v => linearRegression (tileScales R j1 j2) (pySlice v (j1 - 1) j2) w) values with
      | .error e => .error e
      | .ok regs => .ok {
          formalism := m.formalism, nj := m.nj, j := m.values.keys, n_cumul := n_cumul
          j1 := j1, j2 := j2, weighted := weighted, values := values
          log_cumulants := regs.map fun g r => g.slope r * Fl.fin log2e          -- cumulants.py:150
          var_log_cumulants := regs.map fun g r => Fl.fin (log2e ^ 2) * g.var r  -- cumulants.py:151
          slope := regs.map LinReg.slope, intercept := regs.map LinReg.intercept }

/-- Values returned by attribute access on `Cumulants`. -/
inductive CAttr (R : ℕ) where
  | rows (a : Arr R)             -- shape (k, nrep)
  | blocks (a : List (Arr R))    -- shape (k, n_scales, nrep)

/-- `self.m`: `np.arange(1, n_cumul+1)` as reals. -/
def Cumulants.m {R : ℕ} (c : Cumulants R) : List ℝ := (List.range c.n_cumul).map fun i => ((i + 1 : ℕ) : ℝ)

/-- cumulants.py:155-166 `__getattr__` (called for names that are not instance attributes; only ASCII digits
are considered digits). -/
def Cumulants.getattr {R : ℕ} (c : Cumulants R) (name : List Char) : Except PyErr (CAttr R) :=
  match name with
  | ['c', d] =>
    if d.isDigit then .ok (.rows (maskEq c.m ((d.toNat - '0'.toNat : ℕ) : ℝ) c.log_cumulants))
    else .error .attributeError
  | ['C', d] =>
    if d.isDigit then .ok (.blocks (maskEq c.m ((d.toNat - '0'.toNat : ℕ) : ℝ) c.values))
    else .error .attributeError
  | ['M'] => .ok (.rows ((maskEq c.m 2 c.log_cumulants).map fun row r => -(row r)))
  | [] => .error .indexError
  | _ => .error .attributeError

end

end MFA
