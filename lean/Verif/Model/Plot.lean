import Verif.Model.Bivariate
import Verif.Model.Spectrum

/-!
# Model of the plotting methods: the data handed to matplotlib and the exceptions raised on the way

A figure is described by its grid of panels, the panels that are removed from it, and the curves that are drawn.  Colours, titles
and axis labels are left out.  What matplotlib does with the data is not modelled.
-/

namespace MFA

open Classical

noncomputable section

/-- One curve of a figure: the panel (row, column), the abscissae, the ordinates (one column per realisation) and the number
printed in its legend, if there is one. -/
structure Curve (R : ℕ) where
  panel : ℕ × ℕ
  x : List ℤ
  y : Arr R
  legend : Option Fl

/-- A figure with `rows * cols` panels. -/
structure Figure (R : ℕ) where
  rows : ℕ
  cols : ℕ
  removed : List (ℕ × ℕ)
  curves : List (Curve R)

/-- structurefunction.py:143-152 (with `n = nq`), cumulants.py:176-183 (with `n = len(self.m)`): the dimensions of the grid
(`nrow` is already the minimum with the number of exponents). -/
def panelDims (n nrow : ℕ) : Except PyErr (ℕ × ℕ) :=
  if 1 < n then (if nrow = 0 then .error .zeroDivisionError else .ok (nrow, (n + nrow - 1) / nrow))
  else .ok (1, 1)

/-- `axes[i % nrow][i // nrow]` (structurefunction.py:170, cumulants.py:197). -/
def panelAt (dims : ℕ × ℕ) (nrow i : ℕ) : Except PyErr (ℕ × ℕ) :=
  if nrow = 0 then .error .zeroDivisionError
  else if i % nrow < dims.1 ∧ i / nrow < dims.2 then .ok (i % nrow, i / nrow)
  else .error .indexError

/-- `'%.5f' % a` for an array with one entry per realisation: TypeError unless there is exactly one. -/
def fmtRow {R : ℕ} (a : Row R) : Except PyErr Fl := if h : R = 1 then .ok (a ⟨0, by omega⟩) else .error .typeError

/-- structurefunction.py:177-187, cumulants.py:208-221: the fitted line between `x0 = j1` and `x1 = j2`. -/
def fittedLine {R : ℕ} (panel : ℕ × ℕ) (j1 j2 : ℤ) (slope intercept : Row R) (legend : Fl) : Curve R :=
  { panel := panel, x := [j1, j2]
    y := [fun r => slope r * Fl.fin (j1 : ℝ) + intercept r, fun r => slope r * Fl.fin (j2 : ℝ) + intercept r]
    legend := some legend }

/-- structurefunction.py:163-187: one iteration of the loop over the exponents. -/
def sfPlotStep {R : ℕ} (s : StructFn R) (ignore_q0 : Bool) (dims : ℕ × ℕ) (nrow ind_q : ℕ) (q : ℝ) :
    Except PyErr (List (Curve R)) :=
  if q = 0 ∧ ignore_q0 then .ok []
  else match panelAt dims nrow ind_q with
  | .error e => .error e
  | .ok panel => match fmtRow (s.zeta.getD ind_q fun _ => Fl.nan) with
    | .error e => .error e
    | .ok lab => .ok [⟨panel, s.j, s.logvalues.getD ind_q [], none⟩,
        fittedLine panel s.j1 s.j2 (s.zeta.getD ind_q fun _ => Fl.nan) (s.intercept.getD ind_q fun _ => Fl.nan) lab]

/-- structurefunction.py:189-190, cumulants.py:229-230: the panels `j = ind + 1, ...` are removed, where `ind` is the last value
of the loop variable (`n` exponents; UnboundLocalError when there are none). -/
def removedPanels (dims : ℕ × ℕ) (nrow n : ℕ) : Except PyErr (List (ℕ × ℕ)) :=
  if n = 0 then .error .unboundLocalError
  else mapE (fun i => panelAt dims nrow (n + i)) (List.range (dims.1 * dims.2 - n))

/-- structurefunction.py:136-194 `StructureFunction.plot` (`nrow >= 0`). -/
def StructFn.plot {R : ℕ} (s : StructFn R) (nrow : ℕ) (ignore_q0 : Bool) : Except PyErr (Figure R) :=
  let q := s.q.expos.map Expo.val
  let nrow := min nrow q.length                                                     -- structurefunction.py:142
  let nq := q.length - (if 0 ∈ q ∧ ignore_q0 then 1 else 0)                         -- structurefunction.py:143
  match panelDims nq nrow with
  | .error e => .error e
  | .ok dims => match mapE (fun i => sfPlotStep s ignore_q0 dims nrow i (q.getD i 0)) (List.range q.length) with
    | .error e => .error e
    | .ok curves => match removedPanels dims nrow q.length with
      | .error e => .error e
      | .ok removed => .ok ⟨dims.1, dims.2, removed, curves.flatten⟩

/-- cumulants.py:193-225: one iteration of the loop over the orders; nothing is drawn for several realisations. -/
def cmPlotStep {R : ℕ} (c : Cumulants R) (dims : ℕ × ℕ) (nrow ind_m : ℕ) : Except PyErr (List (Curve R)) :=
  match panelAt dims nrow ind_m with
  | .error e => .error e
  | .ok panel =>
    if R ≠ 1 then .ok []
    else match fmtRow (c.log_cumulants.getD ind_m fun _ => Fl.nan) with
    | .error e => .error e
    | .ok lab => .ok [⟨panel, c.j, c.values.getD ind_m [], none⟩,
        fittedLine panel c.j1 c.j2 (c.slope.getD ind_m fun _ => Fl.nan) (c.intercept.getD ind_m fun _ => Fl.nan) lab]

/-- cumulants.py:168-233 `Cumulants.plot` (`nrow >= 0`). -/
def Cumulants.plot {R : ℕ} (c : Cumulants R) (nrow : ℕ) : Except PyErr (Figure R) :=
  let nrow := min nrow c.n_cumul                                                    -- cumulants.py:176
  match panelDims c.n_cumul nrow with
  | .error e => .error e
  | .ok dims => match mapE (cmPlotStep c dims nrow) (List.range c.n_cumul) with
    | .error e => .error e
    | .ok curves => match removedPanels dims nrow c.n_cumul with
      | .error e => .error e
      | .ok removed => .ok ⟨dims.1, dims.2, removed, curves.flatten⟩

/-! ### The scaling function and the multifractal spectrum -/

/-- A figure with a single panel and one polyline per realisation: in column `r` the points `(x[i][r], y[i][r])`.  `window` are the
limits of the axes if they are set by the code. -/
structure XYFigure (R : ℕ) where
  x : Arr R
  y : Arr R
  window : Option ((ℝ × ℝ) × (ℝ × ℝ))

/-- structurefunction.py:196-210 `StructureFunction.plot_scaling`: AssertionError unless there are at least two exponents
(line 198); a 1-D array of abscissae is used for all columns (line 202). -/
def StructFn.plotScaling {R : ℕ} (s : StructFn R) : Except PyErr (XYFigure R) :=
  if s.q.expos.length ≤ 1 then .error .assertionError
  else .ok { x := s.q.expos.map fun e _ => Fl.fin e.val, y := s.zeta, window := none }

/-- mfspectrum.py:146-170 `MultifractalSpectrum.plot`: the points `(h(q), D(q))` (line 161), with `set_xlim((0, 1.5))` and
`set_ylim((0, 1.05))` (lines 164-165). -/
def Spectrum.plot {R : ℕ} (s : Spectrum R) : XYFigure R :=
  { x := s.hq, y := s.Dq, window := some ((0, 3 / 2), (0, 21 / 20)) }

/-! ### Bivariate figures -/

/-- What `plt.subplots(n, k)` gives when `squeeze` keeps its default value and the result is indexed with two integers: ValueError
for an empty grid, a single axes object (TypeError on indexing) for `1 x 1`, a 1-D array (IndexError) for one row or column. -/
def squeezedGrid (n k : ℕ) : Except PyErr Unit :=
  if n = 0 ∨ k = 0 then .error .valueError
  else if n = 1 ∧ k = 1 then .error .typeError
  else if n = 1 ∨ k = 1 then .error .indexError
  else .ok ()

/-- bivariate_cumulants.py:161-167, 170-176, bivariate_structurefunction.py:120-127: the points and the fitted line of one curve,
the line being drawn over all scales `j1 .. j2`. -/
def biCurves (panel : ℕ × ℕ) (j : List ℤ) (values : List Fl) (j1 j2 : ℤ) (slope intercept legend : Fl) : List (Curve 1) :=
  [⟨panel, j, values.map fun v _ => v, none⟩,
   ⟨panel, arange j1 (j2 + 1), (arange j1 (j2 + 1)).map fun (t : ℤ) _ => Fl.fin (t : ℝ) * slope + intercept, some legend⟩]

/-- bivariate_cumulants.py:143-197 `BiCumulants.plot`: the figure of the marginal cumulants and the one of `C11`, whose legend
shows `slope[1, 1]` (line 190) where the others show `log_cumulants` (lines 167, 176). -/
def BiCumulants.plot {R : ℕ} (c : BiCumulants R) : Except PyErr (Figure 1 × Figure 1) :=
  match squeezedGrid c.n_cumul 2 with
  | .error e => .error e
  | .ok () => .ok
    (⟨c.n_cumul, 2, [], (List.range c.n_cumul).flatMap fun i =>
        biCurves (i, 0) c.j (c.values (i + 1) 0) c.j1 c.j2 (c.slope (i + 1) 0) (c.intercept (i + 1) 0) (c.log_cumulants (i + 1) 0)
        ++ biCurves (i, 1) c.j (c.values 0 (i + 1)) c.j1 c.j2 (c.slope 0 (i + 1)) (c.intercept 0 (i + 1))
            (c.log_cumulants 0 (i + 1))⟩,
     ⟨1, 1, [], biCurves (0, 0) c.j (c.values 1 1) c.j1 c.j2 (c.slope 1 1) (c.intercept 1 1) (c.slope 1 1)⟩)

/-- bivariate_structurefunction.py:99-137 `BiStructureFunction.plot`. -/
def BiStructFn.plot (s : BiStructFn) : Except PyErr (Figure 1) :=
  match squeezedGrid s.q1.expos.length s.q2.expos.length with
  | .error e => .error e
  | .ok () => .ok ⟨s.q1.expos.length, s.q2.expos.length, [],
      (List.range s.q1.expos.length).flatMap fun i => (List.range s.q2.expos.length).flatMap fun k =>
        biCurves (i, k) s.j ((s.logvalues.getD i []).getD k []) s.j1 s.j2 ((s.zeta.getD i []).getD k Fl.nan)
          ((s.intercept.getD i []).getD k Fl.nan) ((s.zeta.getD i []).getD k Fl.nan)⟩

/-! ### The surface of the bivariate Legendre spectrum -/

/-- `a.max()` of a non-empty 1-D array: NaN as soon as one entry is NaN; ValueError on an empty array. -/
def npMax (l : List Fl) : Except PyErr Fl :=
  match l with
  | [] => .error .valueError
  | a :: t => .ok (t.foldl (fun m x => if m.isNaN then m else if x.isNaN then x else Fl.max m x) a)

/-- Python / numpy `x >= 0` on a float (False for NaN). -/
def flNonneg (x : Fl) : Bool :=
  match x with
  | .nan => false
  | .pinf => true
  | .ninf => false
  | .fin r => decide (0 ≤ r)

/-- The mask `L.max(axis=0) >= 0`, one entry per column, for an array of `n` rows and `k` columns. -/
def colMask (L : ℕ → ℕ → Fl) (n k : ℕ) : Except PyErr (List Bool) :=
  mapE (fun c => match npMax ((List.range n).map fun i => L i c) with
    | .error e => .error e
    | .ok m => .ok (flNonneg m)) (List.range k)

/-- The mask `L.max(axis=1) >= 0`, one entry per row. -/
def rowMask (L : ℕ → ℕ → Fl) (n k : ℕ) : Except PyErr (List Bool) := colMask (fun i c => L c i) k n

/-- `a[mask]`. -/
def selectMask {α : Type} (a : List α) (mask : List Bool) : List α := ((a.zip mask).filter fun p => p.2).map Prod.fst

/-- Python `min(l)` of a list of finite floats: ValueError on an empty list. -/
def pyMin : List ℝ → Except PyErr ℝ
  | [] => .error .valueError
  | a :: t => .ok (t.foldl min a)

/-- Python `max(l)`. -/
def pyMax : List ℝ → Except PyErr ℝ
  | [] => .error .valueError
  | a :: t => .ok (t.foldl max a)

/-- bivariate_cumulants.py:237-241, 285-289: the range of exponents where the spectrum is not negative, on a grid of `n` points of
`[0, 1.5]`. -/
def BiCumulants.legendreRangeOn {R : ℕ} (c : BiCumulants R) (n : ℕ) : Except PyErr (ℝ × ℝ) :=
  let hL := c.computeLegendre (0, 3 / 2) n
  match colMask hL.2 n n, rowMask hL.2 n n with
  | .ok mx, .ok my =>
    let l := selectMask hL.1 mx ++ selectMask hL.1 my
    match pyMin l, pyMax l with
    | .ok a, .ok b => .ok (a, b)
    | .error e, _ => .error e
    | _, .error e => .error e
  | .error e, _ => .error e
  | _, .error e => .error e

/-- bivariate_cumulants.py:234-241, 283-289: the same with 200 points (the argument `h_support` of `plot_legendre` is not used). -/
def BiCumulants.legendreRange {R : ℕ} (c : BiCumulants R) : Except PyErr (ℝ × ℝ) := c.legendreRangeOn 200

/-- The surface given to `plot_surface(X, Y, L)` (bivariate_cumulants.py:259-262) or `StructuredGrid(X, Y, L)` (line 303): the
abscissae `h_x`, the ordinates `h_y` (`X, Y = meshgrid(h_x, h_y)`) and the rows of heights. -/
structure Surface where
  hx : List ℝ
  hy : List ℝ
  z : List (List Fl)

/-- bivariate_cumulants.py:231-267 `plot_legendre`, 274-303 `plot_legendre_pv`: the surface that is drawn.  `h_x` comes from
`L.max(axis=0)` and `h_y` from `L.max(axis=1)`; the rows are selected after the columns (lines 253-254, 298-299). -/
def BiCumulants.plotLegendre {R : ℕ} (c : BiCumulants R) (resolution : ℕ) : Except PyErr Surface :=
  match c.legendreRange with
  | .error e => .error e
  | .ok range =>
    let hL := c.computeLegendre range resolution
    if resolution = 0 then .error .valueError                                       -- `L.max(axis=0)` of an empty array
    else match colMask hL.2 resolution resolution, rowMask hL.2 resolution resolution with
    | .error e, _ => .error e
    | _, .error e => .error e
    | .ok mx, .ok my =>
      let cols := selectMask (List.range resolution) mx                             -- `L = L[:, L.max(axis=0) >= 0]`
      match rowMask (fun i k => hL.2 i (cols.getD k 0)) resolution cols.length with
      | .error e => .error e
      | .ok my' => .ok
          { hx := selectMask hL.1 mx, hy := selectMask hL.1 my
            z := (selectMask (List.range resolution) my').map fun i => cols.map fun k => hL.2 i k }

end

end MFA
