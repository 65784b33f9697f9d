import Verif.Model.Mfa
import Verif.Model.Bivariate

/-!
# Model of `from_dict` (`pymultifracs/multiresquantity.py`) and of the attribute access of `BiCumulants`
-/

namespace MFA

open Classical

noncomputable section

/-- The python values that are passed to the constructors. -/
inductive PyVal (R : ℕ) where
  | mrq (m : MRQ R)
  | q (q : QArg)
  | int (i : ℤ)
  | bool (b : Bool)
  | str (s : String)
  | num (x : ℝ)
  | none

/-- A python dict with string keys (keys are distinct, in the order of insertion). -/
abbrev PyDict (R : ℕ) := List (String × PyVal R)

/-- `d[k]` of a dict. -/
def PyDict.find {R : ℕ} (d : PyDict R) (k : String) : Option (PyVal R) := (List.find? (fun p => p.1 = k) d).map Prod.snd

/-- multiresquantity.py:60-63: the entries of `d` whose key is a parameter of the constructor. -/
def keepParams {R : ℕ} (params : List String) (d : PyDict R) : PyDict R := d.filter fun p => p.1 ∈ params

/-- The call `cls(**kw)` of a constructor whose parameters have no default values: the arguments in the order of the parameters;
TypeError for an unexpected keyword and for a missing one. -/
def callKw {R : ℕ} (params : List String) (kw : PyDict R) : Except PyErr (List (PyVal R)) :=
  if ∃ p ∈ kw, p.1 ∉ params then .error .typeError
  else mapE (fun k => match kw.find k with
    | some v => .ok v
    | none => .error .typeError) params

/-- The parameters of `StructureFunction` (structurefunction.py:64-68). -/
def StructFn.params : List String := ["mrq", "q", "j1", "j2", "weighted"]

/-- The parameters of `Cumulants` (cumulants.py:71-75). -/
def Cumulants.params : List String := ["mrq", "n_cumul", "j1", "j2", "weighted"]

/-- The parameters of `MultifractalSpectrum` (mfspectrum.py:74-79, `j` is no parameter). -/
def Spectrum.params : List String := ["mrq", "j1", "j2", "weighted", "q"]

/-- The parameters of `BiCumulants` (bivariate_cumulants.py:18-23). -/
def BiCumulants.params : List String := ["mrq1", "mrq2", "n_cumul", "j1", "j2", "weighted"]

/-- The parameters of `BiStructureFunction` (bivariate_structurefunction.py:19-25). -/
def BiStructFn.params : List String := ["mrq1", "mrq2", "j1", "j2", "q1", "q2", "weighted"]

/-- `StructureFunction` on a list of arguments; arguments of other types are not modelled. -/
def StructFn.ofArgs {R : ℕ} : List (PyVal R) → Except PyErr (StructFn R)
  | [.mrq m, .q q, .int j1, .int j2, .bool w] => StructFn.make m q j1 j2 w
  | _ => .error .other

/-- `Cumulants` on a list of arguments (`mrq=None` has no `formalism`: AttributeError; `n_cumul` is taken non-negative). -/
def Cumulants.ofArgs {R : ℕ} : List (PyVal R) → Except PyErr (Cumulants R)
  | [.mrq m, .int n, .int j1, .int j2, .bool w] => if 0 ≤ n then Cumulants.make m n.toNat j1 j2 w else .error .other
  | [.none, .int _, .int _, .int _, .bool _] => .error .attributeError
  | _ => .error .other

/-- `MultifractalSpectrum` on a list of arguments. -/
def Spectrum.ofArgs {R : ℕ} : List (PyVal R) → Except PyErr (Spectrum R)
  | [.mrq m, .int j1, .int j2, .bool w, .q q] => Spectrum.make m j1 j2 w q
  | _ => .error .other

/-- `BiCumulants` on a list of arguments (`same`: both `mrq1` and `mrq2` are one object). -/
def BiCumulants.ofArgs {R : ℕ} (same : Bool) : List (PyVal R) → Except PyErr (BiCumulants R)
  | [.mrq m1, .mrq m2, .int n, .int j1, .int j2, .bool w] =>
    if 0 ≤ n then BiCumulants.make same m1 m2 n.toNat j1 j2 w else .error .other
  | _ => .error .other

/-- `BiStructureFunction` on a list of arguments. -/
def BiStructFn.ofArgs {R : ℕ} (same : Bool) : List (PyVal R) → Except PyErr BiStructFn
  | [.mrq m1, .mrq m2, .int j1, .int j2, .q q1, .q q2, .bool w] => BiStructFn.make same m1 m2 j1 j2 q1 q2 w
  | _ => .error .other

/-- multiresquantity.py:35-63 `from_dict`, for a class with parameters `params` and constructor `cls`. -/
def fromDict {R : ℕ} {α : Type} (params : List String) (cls : List (PyVal R) → Except PyErr α) (d : PyDict R) : Except PyErr α :=
  match callKw params (keepParams params d) with
  | .error e => .error e
  | .ok args => cls args

/-- multiresquantity.py:35-63 on `MultiResolutionQuantity`, whose parameters `formalism` and `gamint` inherit the default value None of
the base class (multiresquantity.py:14-15, 97-98): the formalism and `gamint` of the new object (None formalism: ValueError at line
103; other types are not modelled). -/
def mrqFromDict {R : ℕ} (d : PyDict R) : Except PyErr (Formalism × Option ℝ) :=
  let kw := keepParams ["formalism", "gamint"] d
  match (kw.find "formalism").getD .none, (kw.find "gamint").getD .none with
  | .str s, .num g => match Formalism.ofString s with
    | .error e => .error e
    | .ok f => .ok (f, some g)
  | .str s, .none => match Formalism.ofString s with
    | .error e => .error e
    | .ok f => .ok (f, none)
  | .none, _ => .error .valueError
  | _, _ => .error .other

/-- mfa.py:76-88: `{'mrq': wt_coefs, **parameters}`. -/
def mfParams {R : ℕ} (m : PyVal R) (q : QArg) (n_cumul : ℕ) (j1 j2 : ℤ) (weighted : Bool) : PyDict R :=
  [("mrq", m), ("q", .q q), ("n_cumul", .int n_cumul), ("j1", .int j1), ("j2", .int j2), ("weighted", .bool weighted)]

/-- mfa.py:85-97, literally: the three objects are made with `from_dict`. -/
def mfVarDict {R : ℕ} (m : MRQ R) (j1 j2 : ℤ) (weighted : Bool) (n_cumul : ℕ) (q : List ℝ) : Except PyErr (MFVar R) :=
  let param := mfParams (.mrq m) (.ndarray q) n_cumul j1 j2 weighted
  match fromDict StructFn.params StructFn.ofArgs param with
  | .error e => .error e
  | .ok s => match fromDict Cumulants.params Cumulants.ofArgs param with
    | .error e => .error e
    | .ok c => match fromDict Spectrum.params Spectrum.ofArgs param with
      | .error e => .error e
      | .ok sp => match estimateHmin m j1 j2 weighted true with
        | .error e => .error e
        | .ok h => .ok { structure_ := s, cumulants := c, spectrum := sp, hmin := h.hmin }

/-- mfa.py:153-171, literally: `minimal_mf_analysis` makes both objects with `from_dict`; without leaders `mrq` is None. -/
def minimalDict {R : ℕ} (coefs : MRQ R) (leaders : Option (MRQ R)) (j2_eff j1 : ℤ) (weighted : Bool) (n_cumul : ℕ) (q : Option QArg) :
    Except PyErr (StructFn R × Cumulants R) :=
  let q := q.getD (.pylist [.int 2])
  match fromDict StructFn.params StructFn.ofArgs (mfParams (.mrq coefs) q n_cumul j1 j2_eff weighted) with
  | .error e => .error e
  | .ok s =>
    let m := match leaders with
      | none => PyVal.none
      | some l => .mrq l
    match fromDict Cumulants.params Cumulants.ofArgs (mfParams m q n_cumul j1 j2_eff weighted) with
    | .error e => .error e
    | .ok c => .ok (s, c)

/-- bimfa.py:15-24: `{'mrq1': ..., 'mrq2': ..., **parameters}`. -/
def biParams {R : ℕ} (m1 m2 : MRQ R) (q1 q2 : QArg) (j1 j2 : ℤ) (weighted : Bool) (n_cumul : ℕ) : PyDict R :=
  [("mrq1", .mrq m1), ("mrq2", .mrq m2), ("q1", .q q1), ("q2", .q q2), ("j1", .int j1), ("j2", .int j2),
    ("weighted", .bool weighted), ("n_cumul", .int n_cumul)]

/-- bimfa.py:26-29, literally (`q1` and `q2` given). -/
def biVarDict {R : ℕ} (same : Bool) (m1 m2 : MRQ R) (j1 j2 : ℤ) (weighted : Bool) (n_cumul : ℕ) (q1 q2 : QArg) : Except PyErr (MFBiVar R) :=
  let param := biParams m1 m2 q1 q2 j1 j2 weighted n_cumul
  match fromDict BiCumulants.params (BiCumulants.ofArgs same) param with
  | .error e => .error e
  | .ok c => match fromDict BiStructFn.params (BiStructFn.ofArgs same) param with
    | .error e => .error e
    | .ok s => .ok { structure_ := s, cumulants := c }

/-! ### Attributes of `BiCumulants` -/

/-- Values returned by attribute access on `BiCumulants`. -/
inductive BiAttr where
  | entries (l : List Fl)             -- shape (k,)
  | curves (l : List (List Fl))       -- shape (k, n_scales)

/-- bivariate_cumulants.py:44: `self.m`, as reals. -/
def BiCumulants.m {R : ℕ} (c : BiCumulants R) : List ℝ := (List.range (c.n_cumul + 1)).map fun (i : ℕ) => (i : ℝ)

/-- The value of a digit. -/
def digitVal (d : Char) : ℕ := d.toNat - '0'.toNat

/-- bivariate_cumulants.py:199-209 `__getattr__` (called for names that are not instance attributes; only ASCII digits are considered
digits): `a[self.m == i, self.m == k]`. -/
def BiCumulants.getattr {R : ℕ} (c : BiCumulants R) (name : List Char) : Except PyErr BiAttr :=
  match name with
  | ['c', d, e] =>
    if d.isDigit ∧ e.isDigit then
      match bcast .indexError (fun i k => c.log_cumulants i k) (positions c.m (digitVal d)) (positions c.m (digitVal e)) with
      | .error e => .error e
      | .ok l => .ok (.entries l)
    else .error .attributeError
  | ['C', d, e] =>
    if d.isDigit ∧ e.isDigit then
      match bcast .indexError (fun i k => c.values i k) (positions c.m (digitVal d)) (positions c.m (digitVal e)) with
      | .error e => .error e
      | .ok l => .ok (.curves l)
    else .error .attributeError
  | [] => .error .indexError
  | _ => .error .attributeError

/-- bivariate_cumulants.py:211-229 `compute_legendre` for all values of `n_cumul`: the arrays `self.c10`, ... have one entry, or none
when the order is not available; adding an empty array to the rows of `L` raises ValueError (lines 220-221; no row when
`resolution = 0`). -/
def BiCumulants.legendre {R : ℕ} (c : BiCumulants R) (h_support : ℝ × ℝ) (resolution : ℕ) : Except PyErr (List ℝ × (ℕ → ℕ → Fl)) :=
  match c.getattr ['c', '2', '0'], c.getattr ['c', '0', '2'], c.getattr ['c', '1', '1'], c.getattr ['c', '1', '0'],
    c.getattr ['c', '0', '1'] with
  | .ok (.entries [_]), .ok (.entries [_]), .ok (.entries [_]), .ok (.entries [_]), .ok (.entries [_]) =>
    .ok (c.computeLegendre h_support resolution)
  | .ok _, .ok _, .ok _, .ok _, .ok _ =>
    if resolution = 0 then .ok ([], fun _ _ => Fl.fin 1) else .error .valueError
  | _, _, _, _, _ => .error .attributeError

end

end MFA
