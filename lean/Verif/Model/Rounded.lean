import Verif.Model.Mfa

/-!
# The estimators in rounded arithmetic

The other model files compute exactly on finite numbers.  This file models the same code (the estimators run by
`mf_analysis` on one multiresolution quantity) on a machine whose every arithmetic operation, logarithm, power and
exponential returns a result with a relative error of at most `u`, and whose sums are added up in an arbitrary order, as
numpy's pairwise and vectorised sums do.  IEEE binary64 arithmetic is such a machine, with `u` a few times `2^-53`, as long as
no result overflows or underflows: exponent range is unbounded here.  Integers (scales, counts, binomial coefficients) are
exact.  Taking absolute values, maxima and negatives is exact, as in IEEE arithmetic.
-/

namespace MFA

open Classical

noncomputable section

/-- `b` is the rounded value of the exact result `a`: a finite number within relative error `u` of it, and the same NaN or
infinity if the exact result is one. -/
def Rounds (u : ℝ) (a b : Fl) : Prop :=
  (∃ x y : ℝ, a = Fl.fin x ∧ b = Fl.fin y ∧ |y - x| ≤ u * |x|) ∨ ((∀ x : ℝ, a ≠ Fl.fin x) ∧ b = a)

/-- `s` is a sum of the list computed by the binary operation `add`, in some order and with some parentheses (numpy's
pairwise summation with several accumulators is one instance, the naive loop another one). -/
inductive IsSum (add : Fl → Fl → Fl) : List Fl → Fl → Prop where
  | nil : IsSum add [] (Fl.fin 0)
  | one (x : Fl) : IsSum add [x] x
  | append {l l' : List Fl} {s s' : Fl} : l ≠ [] → l' ≠ [] → IsSum add l s → IsSum add l' s' →
      IsSum add (l ++ l') (add s s')
  | perm {l l' : List Fl} {s : Fl} : l.Perm l' → IsSum add l s → IsSum add l' s

/-- A floating-point unit with its mathematical library; see the header of this file. -/
structure Machine where
  /-- The largest relative error of one operation. -/
  u : ℝ
  u_nonneg : 0 ≤ u
  add : Fl → Fl → Fl
  sub : Fl → Fl → Fl
  mul : Fl → Fl → Fl
  div : Fl → Fl → Fl
  pow : Fl → ℝ → Fl
  sqrt : Fl → Fl
  log2 : Fl → Fl
  ln : Fl → Fl
  exp : Fl → Fl
  /-- `2 ** x`. -/
  exp2 : Fl → Fl
  sum : List Fl → Fl
  add_ok : ∀ a b, Rounds u (a + b) (add a b)
  sub_ok : ∀ a b, Rounds u (a - b) (sub a b)
  mul_ok : ∀ a b, Rounds u (a * b) (mul a b)
  div_ok : ∀ a b, Rounds u (a / b) (div a b)
  pow_ok : ∀ a e, Rounds u (Fl.pow a e) (pow a e)
  sqrt_ok : ∀ a, Rounds u (Fl.sqrt a) (sqrt a)
  log2_ok : ∀ a, Rounds u (Fl.log2 a) (log2 a)
  ln_ok : ∀ a, Rounds u (Fl.ln a) (ln a)
  exp_ok : ∀ a, Rounds u (Fl.exp a) (exp a)
  exp2_ok : ∀ a, Rounds u (Fl.exp2 a) (exp2 a)
  sum_ok : ∀ l, IsSum add l (sum l)

namespace Machine

variable (M : Machine)

/-- utils.py:12-60 `fast_power`, as `fastPower`, with rounded operations. -/
def fastPower (e : Expo) (x : Fl) : Fl :=
  if e.val = 1 then x
  else if e.val = 2 then M.mul x x
  else if e.val = 1 / 2 then M.sqrt x
  else if e.val = 0 then (if x.isNaN then Fl.nan else M.pow x 0)
  else if e.val = -1 then M.pow x (-1)
  else match e with
    | .int n =>
      if 0 < n ∧ n ≤ 10 then (List.range n.toNat).foldl (fun acc _ => M.mul acc x) (Fl.fin 1)
      else M.pow x n
    | .real r => M.pow x r

/-- `np.nansum` on one column: NaN entries are replaced with zeros, and everything is added up. -/
def nansum (l : List Fl) : Fl := M.sum (l.map fun x => if x.isNaN then Fl.fin 0 else x)

/-- `np.nanmean` on one column. -/
def nanmean (l : List Fl) : Fl := M.div (M.nansum l) (Fl.fin (countNotNaN l))

/-- utils.py:141-145 `fixednansum` on one slice. -/
def fixedNanSum (l : List Fl) : Fl := if l.all Fl.isNaN then Fl.nan else M.nansum l

/-- `V_0` (utils.py:93) on one column. -/
def lrV0 (nj : List Fl) : Fl := M.sum nj
/-- `V_1` (utils.py:94) on one column. -/
def lrV1 (x nj : List Fl) : Fl := M.sum (List.zipWith M.mul nj x)
/-- `V_2` (utils.py:95) on one column. -/
def lrV2 (x nj : List Fl) : Fl := M.sum (List.zipWith (fun n t => M.mul n (M.mul t t)) nj x)
/-- The common denominator of utils.py:97-98. -/
def lrDet (x nj : List Fl) : Fl :=
  M.sub (M.mul (M.lrV0 nj) (M.lrV2 x nj)) (M.mul (M.lrV1 x nj) (M.lrV1 x nj))
/-- `weights_slope` (utils.py:97) on one column. -/
def lrWSlope (x nj : List Fl) : List Fl :=
  List.zipWith (fun n t => M.div (M.mul n (M.sub (M.mul (M.lrV0 nj) t) (M.lrV1 x nj))) (M.lrDet x nj)) nj x
/-- `weights_intercept` (utils.py:98) on one column. -/
def lrWInter (x nj : List Fl) : List Fl :=
  List.zipWith (fun n t => M.div (M.mul n (M.sub (M.lrV2 x nj) (M.mul (M.lrV1 x nj) t))) (M.lrDet x nj)) nj x
/-- `var_a` (utils.py:103) on one column. -/
def lrVar (x nj : List Fl) : Fl :=
  M.sum (List.zipWith (fun n w => M.mul (M.mul (M.div (Fl.fin 1) n) w) w) nj (M.lrWSlope x nj))

/-- `np.sum(weights * y, axis=0)` (utils.py:100-101) on one column. -/
def dotB : List Fl → List Fl → Fl
  | [w], y => M.sum (y.map (fun t => M.mul w t))
  | w, [y] => M.sum (w.map (fun t => M.mul t y))
  | w, y => M.sum (List.zipWith M.mul w y)

/-- utils.py:70-108 `linear_regression`, as `linearRegression`, with rounded operations. -/
def linearRegression {R : ℕ} (x y : Arr R) (nj : Weights R) : Except PyErr (LinReg R) :=
  match nj with
  | .flat0 => if x.length = 0 then .error .valueError else .error .assertionError
  | .mat nj =>
    if nj.length ≠ x.length then .error .assertionError
    else if x.length = y.length ∨ x.length = 1 ∨ y.length = 1 then .ok {
            slope := fun r => M.dotB (M.lrWSlope (col x r) (col nj r)) (col y r)
            intercept := fun r => M.dotB (M.lrWInter (col x r) (col nj r)) (col y r)
            var := fun r => M.lrVar (col x r) (col nj r) }
    else .error .valueError

/-- structurefunction.py:96. -/
def sfMean {R : ℕ} (c : Arr R) (q : Expo) : Row R := red M.nanmean (mapArr (M.fastPower q) (mapArr Fl.abs c))

/-- structurefunction.py:86-100 `_compute`. -/
def sfLogValues {R : ℕ} (m : MRQ R) (q : List Expo) : List (Arr R) :=
  q.map fun e => m.values.map fun p r => M.log2 (M.sfMean p.2 e r)

/-- structurefunction.py:125-126 `_get_H`. -/
def sfGetH {R : ℕ} (q : QArg) (zeta : Arr R) (gamint : ℝ) : Except PyErr (Row R) :=
  match q with
  | .pylist _ => .error .indexError
  | .ndarray q =>
    match maskEq q 2 zeta with
    | [] => .error .indexError
    | z :: _ => .ok fun r => M.sub (M.div (z r) (Fl.fin 2)) (Fl.fin gamint)

/-- structurefunction.py:102-123 `_compute_zeta`: one regression per q. -/
def sfRegressions {R : ℕ} (m : MRQ R) (logvalues : List (Arr R)) (j1 j2 : ℤ) (weighted : Bool) :
    Except PyErr (List (LinReg R)) :=
  match regWeights m.nj j1 j2 weighted with
  | .error e => .error e
  | .ok w => mapE (fun lv => M.linearRegression (tileScales R j1 j2) (pySlice lv (j1 - 1) j2) w) logvalues

/-- structurefunction.py:75-84: the constructor `StructureFunction(mrq, q, j1, j2, weighted)`. -/
def structFn {R : ℕ} (m : MRQ R) (q : QArg) (j1 j2 : ℤ) (weighted : Bool) : Except PyErr (StructFn R) :=
  match m.checkNrep with
  | .error e => .error e
  | .ok () =>
    let logvalues := M.sfLogValues m q.expos
    match M.sfRegressions m logvalues j1 j2 weighted with
    | .error e => .error e
    | .ok regs =>
      let zeta : Arr R := regs.map LinReg.slope
      match M.sfGetH q zeta m.gamint with
      | .error e => .error e
      | .ok H => .ok {
          formalism := m.formalism, gamint := m.gamint, j := m.values.keys, q := q
          j1 := j1, j2 := j2, weighted := weighted
          logvalues := logvalues, zeta := zeta, intercept := regs.map LinReg.intercept, H := H }

/-- cumulants.py:106. -/
def cmMoment (logs : List Fl) (m : ℕ) : Fl := M.nanmean (logs.map (M.fastPower (.real m)))

/-- cumulants.py:111-116. -/
def cmAux (m : ℕ) (values moments : List Fl) : Fl :=
  (List.range (m - 1)).foldl (fun aux ind_n =>
    M.add aux (M.mul (M.mul (Fl.fin ((Nat.choose (m - 1) ind_n : ℕ) : ℝ)) (values.getD ind_n Fl.nan))
      (moments.getD (m - 1 - ind_n - 1) Fl.nan))) (Fl.fin 0)

/-- One iteration of the loop over `m` (cumulants.py:104-118) on one column. -/
def cmStep (logs : List Fl) (st : List Fl × List Fl) (m : ℕ) : List Fl × List Fl :=
  let mom := st.2 ++ [M.cmMoment logs m]
  if m = 1 then (st.1 ++ [M.cmMoment logs m], mom)
  else (st.1 ++ [M.sub (M.cmMoment logs m) (M.cmAux m st.1 mom)], mom)

/-- cumulants.py:101-118: cumulants of order `1 .. n` of one column of logs. -/
def cmColumn (logs : List Fl) (n : ℕ) : List Fl :=
  ((List.range n).foldl (fun st i => M.cmStep logs st (i + 1)) ([], [])).1

/-- cumulants.py:101-102. -/
def logAbsCol {R : ℕ} (c : Arr R) (r : Fin R) : List Fl := (col c r).map (fun x => M.ln x.abs)

/-- cumulants.py:95-118 `_compute`. -/
def cmValues {R : ℕ} (m : MRQ R) (n_cumul : ℕ) : List (Arr R) :=
  (List.range n_cumul).map fun i => m.values.map fun p r => (M.cmColumn (M.logAbsCol p.2 r) n_cumul).getD i Fl.nan

/-- `np.log2(np.exp(1))` (cumulants.py:130). -/
def log2e : Fl := M.log2 (M.exp (Fl.fin 1))

/-- cumulants.py:82-153: constructor `Cumulants(mrq, n_cumul, j1, j2, weighted)`. -/
def cumulants {R : ℕ} (m : MRQ R) (n_cumul : ℕ) (j1 j2 : ℤ) (weighted : Bool) : Except PyErr (Cumulants R) :=
  match m.checkNrep with
  | .error e => .error e
  | .ok () =>
    let values := M.cmValues m n_cumul
    match regWeights m.nj j1 j2 weighted with
    | .error e => .error e
    | .ok w =>
      match mapE (fun v => M.linearRegression (tileScales R j1 j2) (pySlice v (j1 - 1) j2) w) values with
      | .error e => .error e
      | .ok regs => .ok {
          formalism := m.formalism, nj := m.nj, j := m.values.keys, n_cumul := n_cumul
          j1 := j1, j2 := j2, weighted := weighted, values := values
          log_cumulants := regs.map fun g r => M.mul (g.slope r) M.log2e
          var_log_cumulants := regs.map fun g r => M.mul (M.pow M.log2e 2) (g.var r)
          slope := regs.map LinReg.slope, intercept := regs.map LinReg.intercept }

/-- mfspectrum.py:109-112 on one column. -/
def msR (c : List Fl) (q : Expo) : List Fl :=
  let temp := (c.map Fl.abs).map (M.fastPower q)
  temp.map (fun t => M.div t (M.nansum temp))

/-- mfspectrum.py:113 on one column. -/
def msV (c : List Fl) (q : Expo) : Fl :=
  M.fixedNanSum (List.zipWith (fun R x => M.mul R (M.log2 x.abs)) (M.msR c q) c)

/-- mfspectrum.py:114-115 on one column. -/
def msU (nj : ℕ) (c : List Fl) (q : Expo) : Fl :=
  M.add (M.log2 (Fl.fin (nj : ℝ))) (M.fixedNanSum ((M.msR c q).map (fun R => M.mul R (M.log2 R))))

/-- mfspectrum.py:103-115. -/
def msUV {R : ℕ} (m : MRQ R) (q : Expo) : Except PyErr (List (Row R × Row R)) :=
  mapE (fun p => match getKey m.nj p.1 with
    | .error e => .error e
    | .ok n => .ok ((fun r => M.msU (n r) (col p.2 r) q), (fun r => M.msV (col p.2 r) q))) m.values

/-- mfspectrum.py:85-144: constructor `MultifractalSpectrum(mrq, j1, j2, weighted, q)`. -/
def spectrum {R : ℕ} (m : MRQ R) (j1 j2 : ℤ) (weighted : Bool) (q : QArg) : Except PyErr (Spectrum R) :=
  match m.checkNrep with
  | .error e => .error e
  | .ok () =>
    if q.expos = [] then .error .valueError
    else match mapE (M.msUV m) q.expos with
    | .error e => .error e
    | .ok uv =>
      let U : List (Arr R) := uv.map (fun l => l.map Prod.fst)
      let V : List (Arr R) := uv.map (fun l => l.map Prod.snd)
      match regWeights m.nj j1 j2 weighted with
      | .error e => .error e
      | .ok w =>
        let x := tileScales R j1 j2
        match mapE (fun u => M.linearRegression x (pySlice u (j1 - 1) j2) w) U with
        | .error e => .error e
        | .ok r1 =>
          match mapE (fun v => M.linearRegression x (pySlice v (j1 - 1) j2) w) V with
          | .error e => .error e
          | .ok r2 => .ok {
              formalism := m.formalism, nj := m.nj, j := m.values.keys, j1 := j1, j2 := j2
              weighted := weighted, q := q, U := U, V := V
              Dq := r1.map fun g r => M.add (Fl.fin 1) (g.slope r)
              hq := r2.map LinReg.slope }

/-- estimation.py:16-50 `estimate_hmin`. -/
def estimateHmin {R : ℕ} (m : MRQ R) (j1 j2_eff : ℤ) (weighted warn : Bool) : Except PyErr (HMin R) :=
  match getKey m.values 1 with
  | .error e => .error e
  | .ok _ =>
    if j2_eff - j1 + 1 < 0 then .error .valueError
    else match mapE (supCoeffs m) (arange j1 (j2_eff + 1)) with
    | .error e => .error e
    | .ok sup =>
      let y := mapArr M.log2 sup
      match regWeights m.nj j1 j2_eff weighted with
      | .error e => .error e
      | .ok w => match M.linearRegression (tileScales R j1 j2_eff) y w with
        | .error e => .error e
        | .ok g => .ok
            { hmin := g.slope, intercept := g.intercept, y := y
              warned := decide (∃ r, g.slope r = Fl.fin 0) && warn }

/-- mfa.py:90-97 (and 106-113): the four estimators on one multiresolution quantity, as `mfVar`, with rounded operations. -/
def mfVar {R : ℕ} (m : MRQ R) (j1 j2 : ℤ) (weighted : Bool) (n_cumul : ℕ) (q : List ℝ) : Except PyErr (MFVar R) :=
  match M.structFn m (.ndarray q) j1 j2 weighted with
  | .error e => .error e
  | .ok s => match M.cumulants m n_cumul j1 j2 weighted with
    | .error e => .error e
    | .ok c => match M.spectrum m j1 j2 weighted (.ndarray q) with
      | .error e => .error e
      | .ok sp => match M.estimateHmin m j1 j2 weighted true with
        | .error e => .error e
        | .ok h => .ok { structure_ := s, cumulants := c, spectrum := sp, hmin := h.hmin }

end Machine

end

end MFA
