import Verif.Model.Viz

/-!
# Specification: what `plot_multiscale` should draw

Small and independent of the model's computations.
-/

namespace MFA

open Classical

noncomputable section

/-- The points of a log-log plot of `values` against `freq`, restricted to the non-zero frequencies below 50. -/
def logLogPoints (freq : List ℝ) (values : List Fl) : List (Fl × Fl) :=
  ((freq.zip values).filter fun p => p.1 ≠ 0 ∧ p.1 < 50).map fun p => (Fl.log2 (Fl.fin p.1), Fl.log2 p.2)

/-- The table has, for every segment of `segs`, exactly one row per subject, in the same order for all segments, with as many values
as frequencies; and no other segment. -/
structure CompleteTable (segs : List String) (rows : List MultiRow) : Prop where
  segs_nodup : segs.Nodup
  subjects : ∃ subjects : List String, subjects ≠ [] ∧ subjects.Nodup ∧
    ∀ seg ∈ segs, (rows.filter fun w => w.seg = seg).map MultiRow.subject = subjects
  only : ∀ w ∈ rows, w.seg ∈ segs
  lengths : ∀ w ∈ rows, w.freq.length = w.mscale.length

/-- The frequencies of every row of segment `seg` are the first ones of one decreasing grid (of positive length): what
`wavelet_estimation` returns for signals of various lengths and one sampling frequency. -/
def CommonGrid (rows : List MultiRow) (seg : String) (grid : List ℝ) : Prop :=
  grid.Pairwise (· > ·) ∧ ∀ w ∈ rows, w.seg = seg → w.freq ≠ [] ∧ w.freq = grid.take w.freq.length

end

end MFA
