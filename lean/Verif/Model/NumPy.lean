import Verif.Model.Fl

/-!
# The numpy / python constructs used by the repository

Arrays of shape `(n, nrep)` are lists of rows; `R` is the number of realisations.
-/

namespace MFA

open Classical

noncomputable section

/-- Python exceptions that the modelled code can raise. -/
inductive PyErr where
  | typeError | indexError | keyError | attributeError | valueError | assertionError
  | unboundLocalError | zeroDivisionError | overflowError | linAlgError | other
  deriving DecidableEq

/-- A vector with one entry per realisation, shape `(nrep,)`. -/
abbrev Row (R : ℕ) := Fin R → Fl

/-- An array of shape `(n, nrep)`. -/
abbrev Arr (R : ℕ) := List (Row R)

/-- Column `r` of an array of shape `(n, nrep)`. -/
def col {R : ℕ} (a : Arr R) (r : Fin R) : List Fl := a.map (fun row => row r)

/-- Axis-0 reduction. -/
def red {R : ℕ} (f : List Fl → Fl) (a : Arr R) : Row R := fun r => f (col a r)

/-- Apply a scalar function to each entry (numpy ufunc). -/
def mapArr {R : ℕ} (f : Fl → Fl) (a : Arr R) : Arr R := a.map (fun row r => f (row r))

/-- Entries that are not NaN. -/
def dropNaN (l : List Fl) : List Fl := l.filter (fun x => !x.isNaN)

/-- `(~np.isnan(a)).sum(axis=0)` on one column. -/
def countNotNaN (l : List Fl) : ℕ := (dropNaN l).length

/-- `np.nansum` on one column (0 when everything is NaN). -/
def nansum (l : List Fl) : Fl := (dropNaN l).sum

/-- `np.nanmean` on one column (`0/0 = NaN` when everything is NaN). -/
def nanmean (l : List Fl) : Fl := nansum l / Fl.fin (countNotNaN l)

/-- `np.nanmax` on one column (NaN when everything is NaN; callers guard the empty column). -/
def nanmax (l : List Fl) : Fl :=
  match dropNaN l with
  | [] => Fl.nan
  | a :: t => t.foldl Fl.max a

/-- Python's normalisation of a slice bound `s` for a sequence of length `n`. -/
def sliceBound (n : ℕ) (s : ℤ) : ℕ :=
  if s < 0 then (s + n).toNat else min s.toNat n

/-- `l[start:stop]` with python semantics (negative bounds count from the end). -/
def pySlice {α : Type} (l : List α) (start stop : ℤ) : List α :=
  (l.take (sliceBound l.length stop)).drop (sliceBound l.length start)

/-- `np.arange(a, b)` for integers. -/
def arange (a b : ℤ) : List ℤ := (List.range (b - a).toNat).map (fun (i : ℕ) => a + (i : ℤ))

/-- `np.tile(np.arange(j1, j2+1)[:, None], (1, nrep))`. -/
def tileScales (R : ℕ) (j1 j2 : ℤ) : Arr R := (arange j1 (j2 + 1)).map (fun (j : ℤ) _ => Fl.fin (j : ℝ))

/-- Apply an operation that may raise to each element, left to right. -/
def mapE {α β : Type} (f : α → Except PyErr β) : List α → Except PyErr (List β)
  | [] => .ok []
  | a :: l => match f a with
    | .error e => .error e
    | .ok b => match mapE f l with
      | .error e => .error e
      | .ok bs => .ok (b :: bs)

/-! ### Python dictionaries keyed by integers (insertion ordered) -/

/-- A python `dict` with integer keys, in insertion order. -/
abbrev Dict (α : Type) := List (ℤ × α)

namespace Dict

/-- `d[k]`, `none` standing for `KeyError`. -/
def get? {α : Type} : Dict α → ℤ → Option α
  | [], _ => none
  | (k, v) :: d, j => if k = j then some v else get? d j

/-- `d[k] = v`: replaces in place or appends. -/
def set {α : Type} : Dict α → ℤ → α → Dict α
  | [], j, v => [(j, v)]
  | (k, w) :: d, j, v => if k = j then (k, v) :: d else (k, w) :: set d j v

/-- `list(d)`. -/
def keys {α : Type} (d : Dict α) : List ℤ := d.map Prod.fst

end Dict

end

end MFA
