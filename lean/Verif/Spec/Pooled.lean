import Verif.Model.Bivariate

/-! Independent definition used by C146: the entries of all realisations put in a single column. -/

namespace MFA

/-- All entries of an array of shape (n, nrep), row by row, as one column. -/
noncomputable def pooledArr {R : ℕ} (a : Arr R) : Arr 1 := (a.flatMap fun row => List.ofFn row).map fun x _ => x

/-- The quantity of one realisation that has, at each scale, the entries of all realisations of `m`, with the counts of its own entries
that are not NaN. -/
noncomputable def pooled {R : ℕ} (m : MRQ R) : MRQ 1 :=
  { formalism := m.formalism, gamint := m.gamint
    values := m.values.map fun p => (p.1, pooledArr p.2)
    nj := m.values.map fun p => (p.1, fun _ => countNotNaN (col (pooledArr p.2) 0)) }

end MFA
