import Verif.Model.Bivariate

/-! Independent definitions used by C148: the complete pairs of entries of two quantities. -/

namespace MFA

/-- The pairs of entries of two columns, position by position, neither of which is NaN. -/
noncomputable def validPairs (c1 c2 : List Fl) : List (Fl × Fl) := (c1.zip c2).filter fun p => !p.1.isNaN && !p.2.isNaN

/-- At every scale the two pairs of quantities have the same complete pairs of entries, whatever their order, and whatever else they have. -/
def SamePairs (m1 m2 m1' m2' : MRQ 1) : Prop :=
  ∀ (k : ℕ) p1 p2 p1' p2', m1.values[k]? = some p1 → m2.values[k]? = some p2 → m1'.values[k]? = some p1' → m2'.values[k]? = some p2' →
    (validPairs (col p1.2 0) (col p2.2 0)).Perm (validPairs (col p1'.2 0) (col p2'.2 0))

/-- The first array, with NaN where the second one is NaN. -/
noncomputable def maskArr (a b : Arr 1) : Arr 1 := (a.zip b).map fun z => if (z.2 0).isNaN then fun _ => Fl.nan else z.1

/-- The first quantity, with NaN where the second one is NaN, and the counts of its own entries that are left. -/
noncomputable def masked (m m' : MRQ 1) : MRQ 1 :=
  { formalism := m.formalism, gamint := m.gamint
    values := (m.values.zip m'.values).map fun q => (q.1.1, maskArr q.1.2 q.2.2)
    nj := (m.values.zip m'.values).map fun q => (q.1.1, fun _ => countNotNaN (col (maskArr q.1.2 q.2.2) 0)) }

end MFA
