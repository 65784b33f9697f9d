import Verif.Model.Psd

/-!
# `viz.py`: `plot_multiscale`

The pandas table is a list of rows in index order; the index (subject, segment) is unique and sorted, as the label slices of
viz.py:21 need.  The two array columns are 1-D.  Of the figure, the curves handed to matplotlib are modelled; the ticks and the
vertical lines (viz.py:78-91, which read the column `slope`) are not.
-/

namespace MFA

open Classical

noncomputable section

/-- One row of the table: index (subject, segment), columns `freq` and `mscale`. -/
structure MultiRow where
  subject : String
  seg : String
  freq : List ℝ
  mscale : List Fl

/-- A curve handed to matplotlib: colour, line width, points. -/
structure MultiCurve where
  color : String
  lw : ℕ
  points : List (Fl × Fl)

/-- viz.py:21 `results.loc[pd.IndexSlice[:, seg], ...]`: the rows of one segment. -/
def segRows (rows : List MultiRow) (seg : String) : List MultiRow := rows.filter fun w => w.seg = seg

/-- Python's `max` of an array of frequencies (ValueError when empty). -/
def maxE (l : List ℝ) : Except PyErr ℝ := match l.max? with
  | some m => .ok m
  | none => .error .valueError

/-- Python's `min`. -/
def minE (l : List ℝ) : Except PyErr ℝ := match l.min? with
  | some m => .ok m
  | none => .error .valueError

/-- viz.py:20-23 `maxf[seg]`: the least of the greatest frequencies of the subjects. -/
def segMaxf (rows : List MultiRow) (seg : String) : Except PyErr ℝ :=
  match mapE (fun w : MultiRow => maxE w.freq) (segRows rows seg) with
  | .error e => .error e
  | .ok l => minE l

/-- viz.py:25-28 `minf[seg]`: the greatest of the least frequencies. -/
def segMinf (rows : List MultiRow) (seg : String) : Except PyErr ℝ :=
  match mapE (fun w : MultiRow => minE w.freq) (segRows rows seg) with
  | .error e => .error e
  | .ok l => maxE l

/-- viz.py:31-32: the values of one row within the band (IndexError when the mask has another length than the values). -/
def trimRow (lo hi : ℝ) (w : MultiRow) : Except PyErr (List Fl) :=
  if w.freq.length ≠ w.mscale.length then .error .indexError
  else .ok (((w.freq.zip w.mscale).filter fun p => p.1 ≤ hi ∧ lo ≤ p.1).map Prod.snd)

/-- viz.py:40 `np.vstack` of 1-D arrays: ValueError unless they all have the same length. -/
def vstack (l : List (List Fl)) : Except PyErr (List (List Fl)) :=
  if ∃ a ∈ l, a.length ≠ (l.headD []).length then .error .valueError else .ok l

/-- viz.py:45 `stack.mean(axis=0)`. -/
def columnMeans (l : List (List Fl)) : List Fl :=
  (List.range (l.headD []).length).map fun (i : ℕ) => (l.map fun a => a.getD i Fl.nan).sum / Fl.fin l.length

/-- viz.py:16-17 `subjects`, in order of appearance. -/
def multiSubjects (rows : List MultiRow) : List String := (rows.map MultiRow.subject).eraseDups

/-- viz.py:20-53 for one segment: frequencies and values of the average curve.  The library runs each step for all the segments
before the next step; here the steps run segment by segment, which matters only for which exception comes first. -/
def segAverage (rows : List MultiRow) (seg : String) : Except PyErr (List ℝ × List Fl) :=
  match segMaxf rows seg with
  | .error e => .error e
  | .ok hi => match segMinf rows seg with
    | .error e => .error e
    | .ok lo => match mapE (trimRow lo hi) (segRows rows seg) with
      | .error e => .error e
      | .ok l => if l.length ≠ (multiSubjects rows).length then .error .valueError      -- pd.Series(..., index=subjects)
        else match vstack l with
        | .error e => .error e
        | .ok s =>                                                                     -- viz.py:48-53, first subject
          match rows.find? fun w => w.seg = seg ∧ some w.subject = (multiSubjects rows).head? with
          | none => .error .keyError
          | some w => .ok (w.freq.filter fun f => f ≤ hi ∧ lo ≤ f, columnMeans s)

/-- viz.py:72-73 `seg2color[...]`. -/
def colorE (seg2color : String → Option String) (seg : String) : Except PyErr String := match seg2color seg with
  | some c => .ok c
  | none => .error .keyError

/-- viz.py:76 with psd.py:146-155: one curve drawn by `log_plot(..., lowpass_freq=50)`. -/
def multiCurve (c : (List ℝ × List Fl) × String × ℕ) : Except PyErr MultiCurve :=
  match logPlotCurve (some 50) "log2" { freq := c.1.1, psd := c.1.2.map fun (v : Fl) (_ : Fin 1) => v } with
  | .error e => .error e
  | .ok (lf, lp) => .ok { color := c.2.1, lw := c.2.2, points := lf.zip (lp.map fun row => row 0) }

/-- viz.py:12-76 `plot_multiscale`.  `segs`: the segments, in the (unspecified) order of iteration of the python set. -/
def plotMultiscale (segs : List String) (rows : List MultiRow) (seg2color : String → Option String) :
    Except PyErr (List MultiCurve) :=
  match mapE (segAverage rows) segs with
  | .error e => .error e
  | .ok avgs => match mapE (colorE seg2color) segs with                                 -- viz.py:72
    | .error e => .error e
    | .ok c1 => match mapE (fun seg => colorE seg2color (seg ++ "_avg")) segs with      -- viz.py:73
      | .error e => .error e
      | .ok c2 =>
        let n := (multiSubjects rows).length
        let curves := (segs.flatMap fun seg => (segRows rows seg).map fun w => (w.freq, w.mscale)) ++ avgs   -- viz.py:65-70
        let color := (c1.flatMap fun c => List.replicate n c) ++ c2                                         -- viz.py:72-73
        let lw := List.replicate (segs.length * n) 1 ++ List.replicate segs.length 2                        -- viz.py:74
        mapE multiCurve (curves.zip (color.zip lw))                                                         -- viz.py:76

end

end MFA
